import Mathlib.Analysis.Calculus.InverseFunctionTheorem.FDeriv
import Mathlib.Analysis.Normed.Operator.Banach
import Mathlib.Topology.ContinuousMap.Bounded.Normed
import Mathlib.Analysis.Calculus.FDeriv.Comp
import Mathlib.Analysis.Calculus.FDeriv.Prod
import Mathlib.Analysis.Calculus.FDeriv.Add
import Mathlib.Analysis.Calculus.FDeriv.Linear

/-!
# Bounded solutions of difference equations near a stationary point

Used for C161.  Bounded sequences are a complete normed space, on which the inverse function theorem applies to
`v ↦ (π v_0, (h(v_t, v_{t+1}))_t)`.
-/

set_option linter.unusedSectionVars false

namespace Dolo

open BoundedContinuousFunction Filter Topology Asymptotics

variable {V W E : Type} [NormedAddCommGroup V] [NormedSpace ℝ V] [NormedAddCommGroup W] [NormedSpace ℝ W]
  [NormedAddCommGroup E] [NormedSpace ℝ E]

/-- `(H (v_t, v_{t+1}))_t` -/
private noncomputable def seqLin (H : V × V →L[ℝ] W) : (ℕ →ᵇ V) →L[ℝ] (ℕ →ᵇ W) :=
  LinearMap.mkContinuous
    { toFun := fun v => ofNormedAddCommGroupDiscrete (fun t => H (v t, v (t + 1))) (‖H‖ * ‖v‖) fun t =>
        (H.le_opNorm _).trans (mul_le_mul_of_nonneg_left
          (max_le (v.norm_coe_le_norm t) (v.norm_coe_le_norm (t + 1))) (norm_nonneg _))
      map_add' := fun v w => by
        ext t
        change H (v t + w t, v (t + 1) + w (t + 1)) = H (v t, v (t + 1)) + H (w t, w (t + 1))
        exact H.map_add (v t, v (t + 1)) (w t, w (t + 1))
      map_smul' := fun c v => by
        ext t
        change H (c • v t, c • v (t + 1)) = c • H (v t, v (t + 1))
        exact H.map_smul c (v t, v (t + 1)) }
    ‖H‖ fun v => (norm_le (by positivity)).2 fun t =>
      (H.le_opNorm _).trans (mul_le_mul_of_nonneg_left
        (max_le (v.norm_coe_le_norm t) (v.norm_coe_le_norm (t + 1))) (norm_nonneg _))

private theorem seqLin_apply (H : V × V →L[ℝ] W) (v : ℕ →ᵇ V) (t : ℕ) : seqLin H v t = H (v t, v (t + 1)) := rfl

open Classical in
/-- `(h (v_t, v_{t+1}))_t`, when bounded -/
private noncomputable def seqMap (h : V × V → W) (v : ℕ →ᵇ V) : ℕ →ᵇ W :=
  if hb : ∃ C, ∀ t, ‖h (v t, v (t + 1))‖ ≤ C then
    ofNormedAddCommGroupDiscrete (fun t => h (v t, v (t + 1))) hb.choose hb.choose_spec
  else 0

private theorem seqMap_apply {h : V × V → W} {v : ℕ →ᵇ V} (hb : ∃ C, ∀ t, ‖h (v t, v (t + 1))‖ ≤ C) (t : ℕ) :
    seqMap h v t = h (v t, v (t + 1)) := by
  unfold seqMap
  rw [dif_pos hb]
  rfl

private theorem near_pair {v : ℕ →ᵇ V} {vb : V} {δ : ℝ} (hv : v ∈ Metric.ball (const ℕ vb) δ) (t : ℕ) :
    (v t, v (t + 1)) ∈ Metric.ball ((vb, vb) : V × V) δ := by
  have h : ∀ t, dist (v t) vb < δ := fun t => lt_of_le_of_lt (dist_coe_le_dist (f := v) (g := const ℕ vb) t) hv
  exact max_lt (h t) (h (t + 1))

private theorem seq_bounded {h : V × V → W} {H : V × V →L[ℝ] W} {vb : V} (hh : HasStrictFDerivAt h H (vb, vb)) :
    ∃ δ > 0, ∀ v : ℕ →ᵇ V, v ∈ Metric.ball (const ℕ vb) δ → ∃ C, ∀ t, ‖h (v t, v (t + 1))‖ ≤ C := by
  obtain ⟨δ, hδ, k⟩ := Metric.eventually_nhds_iff_ball.1 (hh.hasFDerivAt.isLittleO.def one_pos)
  refine ⟨δ, hδ, fun v hv => ⟨(1 + ‖H‖) * δ + ‖h (vb, vb)‖, fun t => ?_⟩⟩
  have h1 := k _ (near_pair hv t)
  have h2 : ‖(v t, v (t + 1)) - (vb, vb)‖ ≤ δ := by rw [← dist_eq_norm]; exact (near_pair hv t).le
  have h3 := H.le_opNorm ((v t, v (t + 1)) - (vb, vb))
  have e : h (v t, v (t + 1)) = (h (v t, v (t + 1)) - h (vb, vb) - H ((v t, v (t + 1)) - (vb, vb)))
      + H ((v t, v (t + 1)) - (vb, vb)) + h (vb, vb) := by abel
  rw [e]
  refine (norm_add_le _ _).trans (add_le_add ((norm_add_le _ _).trans ?_) le_rfl)
  have h4 := mul_le_mul_of_nonneg_left h2 (norm_nonneg H)
  linarith

private theorem seqMap_strict {h : V × V → W} {H : V × V →L[ℝ] W} {vb : V} (hh : HasStrictFDerivAt h H (vb, vb)) :
    HasStrictFDerivAt (seqMap h) (seqLin H) (const ℕ vb) := by
  obtain ⟨δ1, hδ1, hb⟩ := seq_bounded hh
  refine HasStrictFDerivAt.of_isLittleO (isLittleO_iff.2 fun c hc => ?_)
  obtain ⟨δ, hδ, k⟩ := Metric.eventually_nhds_iff_ball.1 (hh.isLittleO.def hc)
  refine Metric.eventually_nhds_iff_ball.2 ⟨min δ δ1, lt_min hδ hδ1, fun p hp => ?_⟩
  have hp' : max (dist p.1 (const ℕ vb)) (dist p.2 (const ℕ vb)) < min δ δ1 := hp
  have h1 := (le_max_left _ _).trans_lt hp'
  have h2 := (le_max_right _ _).trans_lt hp'
  refine (norm_le (by positivity)).2 fun t => ?_
  have e : (seqMap h p.1 - seqMap h p.2 - seqLin H (p.1 - p.2)) t
      = h (p.1 t, p.1 (t + 1)) - h (p.2 t, p.2 (t + 1)) - H ((p.1 t, p.1 (t + 1)) - (p.2 t, p.2 (t + 1))) := by
    rw [BoundedContinuousFunction.sub_apply, BoundedContinuousFunction.sub_apply, seqMap_apply (hb _ (h1.trans_le (min_le_right _ _))),
      seqMap_apply (hb _ (h2.trans_le (min_le_right _ _)))]
    rfl
  rw [e]
  have a1 := near_pair (v := p.1) (vb := vb) (h1.trans_le (min_le_left _ _)) t
  have a2 := near_pair (v := p.2) (vb := vb) (h2.trans_le (min_le_left _ _)) t
  refine (k ((p.1 t, p.1 (t + 1)), (p.2 t, p.2 (t + 1))) (show max _ _ < δ from max_lt a1 a2)).trans
    (mul_le_mul_of_nonneg_left ?_ hc.le)
  exact max_le ((p.1 - p.2).norm_coe_le_norm t) ((p.1 - p.2).norm_coe_le_norm (t + 1))

/-- When the linearised equation has exactly one bounded solution for every initial value and every bounded right-hand
side, the nonlinear equation has, for every initial value near the stationary point, exactly one solution that stays near
it.  It depends on the initial value in a differentiable way, and stays within a multiple of the initial distance. -/
theorem bounded_paths [CompleteSpace V] [CompleteSpace W] [CompleteSpace E] {h : V × V → W} {H : V × V →L[ℝ] W} {vb : V}
    (hh : HasStrictFDerivAt h H (vb, vb)) (h0 : h (vb, vb) = 0) (π : V →L[ℝ] E)
    (hinj : ∀ v : ℕ → V, (∃ b, ∀ t, ‖v t‖ ≤ b) → π (v 0) = 0 → (∀ t, H (v t, v (t + 1)) = 0) → ∀ t, v t = 0)
    (hsurj : ∀ (e : E) (c : ℕ → W), (∃ b, ∀ t, ‖c t‖ ≤ b) →
      ∃ v : ℕ → V, (∃ b, ∀ t, ‖v t‖ ≤ b) ∧ π (v 0) = e ∧ ∀ t, H (v t, v (t + 1)) = c t) :
    ∃ δ > 0, ∃ path : E → ℕ → V,
      (∃ c > 0, ∀ᶠ s in 𝓝 (π vb), ∀ t, ‖path s t - vb‖ ≤ c * ‖s - π vb‖) ∧
      (∀ᶠ s in 𝓝 (π vb), π (path s 0) = s ∧ (∀ t, h (path s t, path s (t + 1)) = 0) ∧ ∀ t, ‖path s t - vb‖ < δ) ∧
      (∀ v : ℕ → V, (∀ t, ‖v t - vb‖ < δ) → (∀ t, h (v t, v (t + 1)) = 0) → path (π (v 0)) = v) ∧
      DifferentiableAt ℝ (fun s => path s 0) (π vb) := by
  -- the derivative is invertible
  let L : (ℕ →ᵇ V) →L[ℝ] E × (ℕ →ᵇ W) := (π.comp (evalCLM ℝ 0)).prod (seqLin H)
  have hL : ∀ v, L v = (π (v 0), seqLin H v) := fun v => rfl
  have ker : L.ker = ⊥ := by
    refine LinearMap.ker_eq_bot'.2 fun v hv => ?_
    have hv' : (π (v 0), seqLin H v) = (0, 0) := hv
    rw [Prod.mk.injEq] at hv'
    ext t
    exact hinj v ⟨‖v‖, v.norm_coe_le_norm⟩ hv'.1 (fun t => by
      have := congrArg (fun w : ℕ →ᵇ W => w t) hv'.2
      exact this) t
  have ran : L.range = ⊤ := by
    refine LinearMap.range_eq_top.2 fun y => ?_
    obtain ⟨v, ⟨b, hb⟩, e1, e2⟩ := hsurj y.1 y.2 ⟨‖y.2‖, y.2.norm_coe_le_norm⟩
    refine ⟨ofNormedAddCommGroupDiscrete v b hb, Prod.ext e1 ?_⟩
    ext t
    exact e2 t
  let L' : (ℕ →ᵇ V) ≃L[ℝ] E × (ℕ →ᵇ W) := ContinuousLinearEquiv.ofBijective L ker ran
  let G : (ℕ →ᵇ V) → E × (ℕ →ᵇ W) := fun v => (π (v 0), seqMap h v)
  have hG : HasStrictFDerivAt G (L' : (ℕ →ᵇ V) →L[ℝ] E × (ℕ →ᵇ W)) (const ℕ vb) :=
    ((π.comp (evalCLM ℝ 0)).hasStrictFDerivAt (x := const ℕ vb)).prodMk (seqMap_strict hh)
  obtain ⟨δ1, hδ1, hb⟩ := seq_bounded hh
  have G0 : G (const ℕ vb) = (π vb, 0) := by
    refine Prod.ext rfl ?_
    ext t
    exact (seqMap_apply (hb _ (Metric.mem_ball_self hδ1)) t).trans h0
  obtain ⟨δ2, hδ2, hleft⟩ := Metric.eventually_nhds_iff_ball.1 hG.eventually_left_inverse
  let I := hG.localInverse G L' (const ℕ vb)
  have hI : HasStrictFDerivAt I (L'.symm : E × (ℕ →ᵇ W) →L[ℝ] (ℕ →ᵇ V)) (π vb, 0) := by
    have := hG.to_localInverse
    rwa [G0] at this
  have hI0 : I (π vb, 0) = const ℕ vb := by
    rw [← G0]; exact hG.localInverse_apply_image
  let δ := min δ1 δ2 / 2
  have hδ : 0 < δ := half_pos (lt_min hδ1 hδ2)
  have hpair : HasFDerivAt (fun s : E => (s, (0 : ℕ →ᵇ W))) (ContinuousLinearMap.inl ℝ E (ℕ →ᵇ W)) (π vb) :=
    (ContinuousLinearMap.inl ℝ E (ℕ →ᵇ W)).hasFDerivAt
  have hPath : HasFDerivAt (fun s : E => I (s, 0))
      ((L'.symm : E × (ℕ →ᵇ W) →L[ℝ] (ℕ →ᵇ V)).comp (ContinuousLinearMap.inl ℝ E (ℕ →ᵇ W))) (π vb) :=
    HasFDerivAt.comp (g := I) (f := fun s : E => (s, (0 : ℕ →ᵇ W))) (π vb) hI.hasFDerivAt hpair
  have near : ∀ᶠ s in 𝓝 (π vb), I (s, 0) ∈ Metric.ball (const ℕ vb) δ := by
    have := hPath.continuousAt
    refine this.eventually_mem ?_
    rw [hI0]
    exact Metric.ball_mem_nhds _ hδ
  have right : ∀ᶠ s in 𝓝 (π vb), G (I (s, 0)) = (s, 0) := by
    have h1 := hG.eventually_right_inverse
    rw [G0] at h1
    exact hpair.continuousAt.eventually h1
  have toNorm : ∀ (v : ℕ →ᵇ V) (r : ℝ), v ∈ Metric.ball (const ℕ vb) r → ∀ t, ‖v t - vb‖ < r := by
    intro v r hv t
    rw [← dist_eq_norm]
    exact lt_of_le_of_lt (dist_coe_le_dist (f := v) (g := const ℕ vb) t) hv
  refine ⟨δ, hδ, fun s => I (s, 0), ?_, ?_, ?_, ?_⟩
  · obtain ⟨c, hc, hO⟩ := (hPath.isBigO_sub).exists_pos
    refine ⟨c, hc, ?_⟩
    filter_upwards [hO.bound] with s hs t
    refine le_trans ?_ hs
    rw [hI0]
    exact (I (s, 0) - const ℕ vb).norm_coe_le_norm t
  · filter_upwards [near, right] with s hn hr
    have hr' : (π (I (s, 0) 0), seqMap h (I (s, 0))) = (s, 0) := hr
    rw [Prod.mk.injEq] at hr'
    refine ⟨hr'.1, fun t => ?_, toNorm _ _ hn⟩
    have hb' := hb (I (s, 0)) (Metric.ball_subset_ball
      ((half_lt_self (lt_min hδ1 hδ2)).le.trans (min_le_left _ _)) hn)
    rw [← seqMap_apply hb' t, hr'.2]
    rfl
  · intro v hv hz
    have hvb : ∀ t, ‖v t‖ ≤ δ + ‖vb‖ := fun t => by
      have e : v t = (v t - vb) + vb := by abel
      rw [e]
      exact (norm_add_le _ _).trans (add_le_add (hv t).le le_rfl)
    let w : ℕ →ᵇ V := ofNormedAddCommGroupDiscrete v (δ + ‖vb‖) hvb
    have hw : w ∈ Metric.ball (const ℕ vb) (min δ1 δ2) := by
      refine lt_of_le_of_lt ((dist_le hδ.le).2 fun t => ?_) (half_lt_self (lt_min hδ1 hδ2))
      rw [dist_eq_norm]
      exact (hv t).le
    have e1 : G w = (π (v 0), 0) := by
      refine Prod.ext rfl ?_
      ext t
      exact (seqMap_apply (hb w (Metric.ball_subset_ball (min_le_left _ _) hw)) t).trans (hz t)
    have e2 := hleft w (Metric.ball_subset_ball (min_le_right _ _) hw)
    rw [e1] at e2
    funext t
    exact congrArg (fun u : ℕ →ᵇ V => u t) e2
  · have hev : HasFDerivAt (evalCLM ℝ 0 : (ℕ →ᵇ V) →L[ℝ] V) (evalCLM ℝ 0) (I (π vb, 0)) :=
      ContinuousLinearMap.hasFDerivAt _
    exact (HasFDerivAt.comp (g := (evalCLM ℝ 0 : (ℕ →ᵇ V) →L[ℝ] V)) (f := fun s : E => I (s, 0)) (π vb)
      hev hPath).differentiableAt

end Dolo
