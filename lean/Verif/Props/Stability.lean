import Verif.Lemmas.LocalRate
import Verif.Props.Perturbation
import Verif.Props.Simulation

/-!
# C116: stable solutions return to the steady state
-/

set_option linter.unusedSectionVars false

namespace Dolo

open Matrix

/-! ### Helpers -/

section loop

variable {M S X : Type}

private theorem simLoop_const (g : M → S → X → M → S) (dr : M → S → X) (m : M) (s : S) (T t : ℕ)
    (p : S × X) (hp : (simLoop g dr m s (List.replicate T m))[t]? = some p) :
    p = ((fun s => g m s (dr m s) m)^[t] s, dr m ((fun s => g m s (dr m s) m)^[t] s)) := by
  induction T generalizing s t with
  | zero => simp [simLoop] at hp
  | succ T ih =>
    rw [List.replicate_succ, simLoop] at hp
    cases t with
    | zero => simpa using hp.symm
    | succ t =>
      simp only [List.getElem?_cons_succ] at hp
      have := ih (g m s (dr m s) m) t hp
      simpa [Function.iterate_succ_apply] using this

private theorem simLoop_len (g : M → S → X → M → S) (dr : M → S → X) (mp : M) (s : S) (ms : List M) :
    (simLoop g dr mp s ms).length = ms.length := by
  induction ms generalizing mp s with
  | nil => rfl
  | cons m r ih => simp [simLoop, ih]

end loop

variable {nm ns nx : ℕ}

private theorem rate (F : (Fin ns → ℝ) → Fin ns → ℝ) (A : Matrix (Fin ns) (Fin ns) ℝ) (sbar : Fin ns → ℝ)
    (hfix : F sbar = sbar) (hd : HasFDerivAt F (mulVecCLM A) sbar)
    (hA : ∀ z, IsEigenvalue A z → ‖z‖ < 1) :
    ∃ ε > 0, ∃ C > 0, ∃ r, 0 < r ∧ r < 1 ∧ ∀ s, dist s sbar < ε → ∀ n,
      dist (F^[n] s) sbar ≤ C * r ^ n * dist s sbar := by
  rcases isEmpty_or_nonempty (Fin ns) with h | h
  · refine ⟨1, one_pos, 1, one_pos, 1 / 2, by norm_num, by norm_num, fun s _ n => ?_⟩
    rw [Subsingleton.elim (F^[n] s) sbar, Subsingleton.elim s sbar]
    simp
  · obtain ⟨k, hk, hn⟩ := exists_pow_norm_lt_one A hA
    exact local_rate F A sbar hfix hd hk hn

/-- **C116, simulation.**  If the eigenvalues of the derivative of `s ↦ g(m, s, dr(m, s), m)` at a steady
state are below one in modulus, every simulation that starts close enough to the steady state, with exogenous
variables at their steady-state values, returns to it: the deviation at date `t` is at most `C r^t` times the
initial deviation, with constants that depend neither on the horizon nor on the starting point. -/
theorem C116_simulate {M X : Type} (g : M → (Fin ns → ℝ) → X → M → Fin ns → ℝ)
    (dr : M → (Fin ns → ℝ) → X) (mbar : M) (sbar : Fin ns → ℝ) (A : Matrix (Fin ns) (Fin ns) ℝ)
    (hfix : g mbar sbar (dr mbar sbar) mbar = sbar)
    (hd : HasFDerivAt (fun s => g mbar s (dr mbar s) mbar) (mulVecCLM A) sbar)
    (hA : ∀ z, IsEigenvalue A z → ‖z‖ < 1) :
    ∃ ε > 0, ∃ C > 0, ∃ r, 0 < r ∧ r < 1 ∧ ∀ s0, dist s0 sbar < ε → ∀ T, 1 ≤ T →
      ∃ sim, simulateDriven g dr s0 T (List.replicate T mbar) = .ok sim ∧ sim.length = T ∧
        ∀ (t : ℕ) (p : (Fin ns → ℝ) × X), sim[t]? = some p →
          dist p.1 sbar ≤ C * r ^ t * dist s0 sbar ∧ p.2 = dr mbar p.1 := by
  obtain ⟨ε, hε, C, hC, r, hr0, hr1, h⟩ := rate _ A sbar hfix hd hA
  refine ⟨ε, hε, C, hC, r, hr0, hr1, fun s0 hs0 T hT => ?_⟩
  obtain ⟨n, rfl⟩ : ∃ n, T = n + 1 := ⟨T - 1, by omega⟩
  refine ⟨simLoop g dr mbar s0 (List.replicate (n + 1) mbar), ?_, ?_, fun t p hp => ?_⟩
  · simp [simulateDriven, firstRows, List.replicate_succ, bind, Except.bind, pure, Except.pure]
  · rw [simLoop_len, List.length_replicate]
  · have e := simLoop_const g dr mbar s0 (n + 1) t p hp
    rw [e]
    exact ⟨h s0 hs0 t, rfl⟩

/-- The data of a model around a steady state with zero shocks: values and derivatives of the transition and of
the rule. -/
structure SmoothAround (g : (Fin nm → ℝ) → (Fin ns → ℝ) → (Fin nx → ℝ) → (Fin nm → ℝ) → Fin ns → ℝ)
    (dr : (Fin nm → ℝ) → (Fin ns → ℝ) → Fin nx → ℝ) (sbar : Fin ns → ℝ) (xbar : Fin nx → ℝ)
    (g_s : Matrix (Fin ns) (Fin ns) ℝ) (g_x : Matrix (Fin ns) (Fin nx) ℝ)
    (C : Matrix (Fin nx) (Fin ns) ℝ) : Prop where
  rule : dr (fun _ => 0) sbar = xbar
  steady : g (fun _ => 0) sbar xbar (fun _ => 0) = sbar
  diff_rule : ∃ D : (Fin nm → ℝ) × (Fin ns → ℝ) →L[ℝ] (Fin nx → ℝ), HasFDerivAt (fun p : (Fin nm → ℝ) × (Fin ns → ℝ) => dr p.1 p.2) D ((fun _ => 0), sbar) ∧
    ∀ ds, D (0, ds) = C *ᵥ ds
  diff_transition : ∃ G : (Fin nm → ℝ) × (Fin ns → ℝ) × (Fin nx → ℝ) × (Fin nm → ℝ) →L[ℝ] (Fin ns → ℝ), HasFDerivAt
      (fun p : (Fin nm → ℝ) × (Fin ns → ℝ) × (Fin nx → ℝ) × (Fin nm → ℝ) => g p.1 p.2.1 p.2.2.1 p.2.2.2) G
      ((fun _ => 0), sbar, xbar, (fun _ => 0)) ∧
    ∀ ds dx, G (0, ds, dx, 0) = g_s *ᵥ ds + g_x *ᵥ dx

variable {g : (Fin nm → ℝ) → (Fin ns → ℝ) → (Fin nx → ℝ) → (Fin nm → ℝ) → Fin ns → ℝ}
    {dr : (Fin nm → ℝ) → (Fin ns → ℝ) → Fin nx → ℝ} {sbar : Fin ns → ℝ} {xbar : Fin nx → ℝ}
    {g_s : Matrix (Fin ns) (Fin ns) ℝ} {g_x : Matrix (Fin ns) (Fin nx) ℝ} {C : Matrix (Fin nx) (Fin ns) ℝ}

private theorem closed_loop (h : SmoothAround g dr sbar xbar g_s g_x C) :
    HasFDerivAt (fun s => g (fun _ => 0) s (dr (fun _ => 0) s) (fun _ => 0)) (mulVecCLM (g_s + g_x * C)) sbar := by
  obtain ⟨D, hD, hD'⟩ := h.diff_rule
  obtain ⟨G, hG, hG'⟩ := h.diff_transition
  have h1 : HasFDerivAt (fun s : Fin ns → ℝ => dr (fun _ => 0) s)
      (D.comp ((0 : (Fin ns → ℝ) →L[ℝ] (Fin nm → ℝ)).prod (ContinuousLinearMap.id ℝ _))) sbar :=
    HasFDerivAt.comp sbar hD ((hasFDerivAt_const (fun _ => (0 : ℝ)) sbar).prodMk (hasFDerivAt_id sbar))
  have h2 : HasFDerivAt (fun s : Fin ns → ℝ => ((fun _ => (0 : ℝ) : Fin nm → ℝ), s,
        dr (fun _ => 0) s, (fun _ => (0 : ℝ) : Fin nm → ℝ)))
      ((0 : (Fin ns → ℝ) →L[ℝ] (Fin nm → ℝ)).prod ((ContinuousLinearMap.id ℝ _).prod
        ((D.comp ((0 : (Fin ns → ℝ) →L[ℝ] (Fin nm → ℝ)).prod (ContinuousLinearMap.id ℝ _))).prod
          (0 : (Fin ns → ℝ) →L[ℝ] (Fin nm → ℝ))))) sbar :=
    (hasFDerivAt_const _ sbar).prodMk ((hasFDerivAt_id sbar).prodMk (h1.prodMk (hasFDerivAt_const _ sbar)))
  have hG2 := hG
  rw [← h.rule] at hG2
  have h3 := HasFDerivAt.comp sbar hG2 h2
  refine h3.congr_fderiv ?_
  ext v : 1
  have e := hG' v (C *ᵥ v)
  simp only [mulVecCLM_apply, ContinuousLinearMap.comp_apply, ContinuousLinearMap.prod_apply,
    _root_.zero_apply, ContinuousLinearMap.id_apply, hD', e, Matrix.add_mulVec,
    Matrix.mulVec_mulVec]

/-- **C116, impulse responses.**  For every smooth model with iid shocks, whose solution has eigenvalues
below one in modulus, the response to every small enough impulse exists for every horizon and dies out: states
and controls at date `t` are within `D r^t ‖e‖` of the steady state. -/
theorem C116_response (rho : Fin nm → Fin nm → ℝ) (mu : Fin nm → ℝ)
    (h : SmoothAround g dr sbar xbar g_s g_x C)
    (hA : ∀ z, IsEigenvalue (g_s + g_x * C) z → ‖z‖ < 1) :
    ∃ δ > 0, ∃ D > 0, ∃ r, 0 < r ∧ r < 1 ∧ ∀ e : Fin nm → ℝ, ‖e‖ < δ → ∀ T, 2 ≤ T →
      ∃ sim, modelResponse .iid rho mu g dr sbar T e = .ok sim ∧ sim.length = T ∧
        ∀ (t : ℕ) (p : (Fin ns → ℝ) × (Fin nx → ℝ)), sim[t]? = some p →
          dist p.1 sbar ≤ D * r ^ t * ‖e‖ ∧ dist p.2 xbar ≤ D * r ^ t * ‖e‖ := by
  obtain ⟨ε, hε, B, hB, r, hr0, hr1, hrate⟩ := rate _ (g_s + g_x * C) sbar
    (by rw [h.rule, h.steady]) (closed_loop h) hA
  set z : Fin nm → ℝ := fun _ => 0 with hz
  have hdr : DifferentiableAt ℝ (fun p : (Fin nm → ℝ) × (Fin ns → ℝ) => dr p.1 p.2) (z, sbar) := by
    obtain ⟨D, hD, -⟩ := h.diff_rule
    exact hD.differentiableAt
  have hg : DifferentiableAt ℝ
      (fun p : (Fin nm → ℝ) × (Fin ns → ℝ) × (Fin nx → ℝ) × (Fin nm → ℝ) => g p.1 p.2.1 p.2.2.1 p.2.2.2)
      (z, sbar, xbar, z) := by
    obtain ⟨G, hG, -⟩ := h.diff_transition
    exact hG.differentiableAt
  -- the dates at which the impulse matters
  set x1 : (Fin nm → ℝ) → Fin nx → ℝ := fun e => dr e sbar with hx1
  set s2 : (Fin nm → ℝ) → Fin ns → ℝ := fun e => g z sbar (x1 e) e with hs2
  set s3 : (Fin nm → ℝ) → Fin ns → ℝ := fun e => g e (s2 e) (dr z (s2 e)) z with hs3
  have dx1 : DifferentiableAt ℝ x1 z :=
    DifferentiableAt.comp z (f := fun e : Fin nm → ℝ => (e, sbar)) hdr
      (differentiableAt_id.prodMk (differentiableAt_const sbar))
  have vx1 : x1 z = xbar := h.rule
  have ds2 : DifferentiableAt ℝ s2 z := by
    refine DifferentiableAt.comp z (g := fun p : (Fin nm → ℝ) × (Fin ns → ℝ) × (Fin nx → ℝ) × (Fin nm → ℝ) =>
      g p.1 p.2.1 p.2.2.1 p.2.2.2)
      (f := fun e : Fin nm → ℝ => (z, sbar, x1 e, e)) ?_
      ((differentiableAt_const z).prodMk ((differentiableAt_const sbar).prodMk (dx1.prodMk differentiableAt_id)))
    rw [vx1]
    exact hg
  have vs2 : s2 z = sbar := by rw [hs2]; simp only [vx1]; exact h.steady
  have ddr : DifferentiableAt ℝ (fun s => dr z s) sbar :=
    DifferentiableAt.comp sbar (f := fun s : Fin ns → ℝ => (z, s)) hdr
      ((differentiableAt_const z).prodMk differentiableAt_id)
  have ds3 : DifferentiableAt ℝ s3 z := by
    refine DifferentiableAt.comp z (g := fun p : (Fin nm → ℝ) × (Fin ns → ℝ) × (Fin nx → ℝ) × (Fin nm → ℝ) =>
      g p.1 p.2.1 p.2.2.1 p.2.2.2)
      (f := fun e : Fin nm → ℝ => (e, s2 e, dr z (s2 e), z)) ?_
      (differentiableAt_id.prodMk (ds2.prodMk (DifferentiableAt.prodMk ?_ (differentiableAt_const z))))
    · rw [vs2, h.rule]
      exact hg
    · refine DifferentiableAt.comp z (f := s2) (g := fun s => dr z s) ?_ ds2
      rw [vs2]
      exact ddr
  have vs3 : s3 z = sbar := by rw [hs3]; simp only [vs2]; rw [h.rule]; exact h.steady
  -- Lipschitz bounds near zero
  have lip : ∀ {n k : ℕ} (f : (Fin n → ℝ) → Fin k → ℝ) (a : Fin n → ℝ) (b : Fin k → ℝ),
      DifferentiableAt ℝ f a → f a = b → ∃ L > 0, ∃ δ > 0, ∀ y, dist y a < δ → dist (f y) b ≤ L * dist y a := by
    intro n k f a b hf hb
    obtain ⟨L, hL, hl⟩ := hf.hasFDerivAt.isBigO_sub.exists_pos
    obtain ⟨δ, hδ, hl⟩ := Metric.eventually_nhds_iff.1 hl.bound
    refine ⟨L, hL, δ, hδ, fun y hy => ?_⟩
    have := hl hy
    rw [hb] at this
    rwa [dist_eq_norm, dist_eq_norm]
  obtain ⟨L1, hL1, δ1, hδ1, l1⟩ := lip x1 z xbar dx1 vx1
  obtain ⟨L2, hL2, δ2, hδ2, l2⟩ := lip s2 z sbar ds2 vs2
  obtain ⟨L3, hL3, δ3, hδ3, l3⟩ := lip s3 z sbar ds3 vs3
  obtain ⟨L4, hL4, δ4, hδ4, l4⟩ := lip (fun s => dr z s) sbar xbar ddr h.rule
  have hez : ∀ e : Fin nm → ℝ, dist e z = ‖e‖ := fun e => by
    rw [dist_eq_norm]; congr 1; exact sub_zero e
  set E := L1 + L2 + B * L3 + L4 * (L2 + B * L3) with hE
  have hE0 : 0 < E := by positivity
  refine ⟨min (min δ1 δ2) (min (min δ3 (ε / L3)) (min (δ4 / L2) (δ4 / (B * L3)))), ?_, E / r ^ 3, by positivity,
    r, hr0, hr1, fun e he T hT => ?_⟩
  · refine lt_min (lt_min hδ1 hδ2) (lt_min (lt_min hδ3 ?_) (lt_min ?_ ?_)) <;> positivity
  have n0 := norm_nonneg e
  have he1 : dist e z < δ1 := by
    rw [hez]; exact lt_of_lt_of_le he ((min_le_left _ _).trans (min_le_left _ _))
  have he2 : dist e z < δ2 := by
    rw [hez]; exact lt_of_lt_of_le he ((min_le_left _ _).trans (min_le_right _ _))
  have he3 : dist e z < δ3 := by
    rw [hez]; exact lt_of_lt_of_le he ((min_le_right _ _).trans ((min_le_left _ _).trans (min_le_left _ _)))
  have he4 : L3 * ‖e‖ < ε := by
    have := lt_of_lt_of_le he ((min_le_right _ _).trans ((min_le_left _ _).trans (min_le_right _ _)))
    rw [lt_div_iff₀ hL3] at this
    linarith
  have he5 : L2 * ‖e‖ < δ4 := by
    have := lt_of_lt_of_le he ((min_le_right _ _).trans ((min_le_right _ _).trans (min_le_left _ _)))
    rw [lt_div_iff₀ hL2] at this
    linarith
  have he6 : B * L3 * ‖e‖ < δ4 := by
    have := lt_of_lt_of_le he ((min_le_right _ _).trans ((min_le_right _ _).trans (min_le_right _ _)))
    rw [lt_div_iff₀ (by positivity)] at this
    linarith
  have b1 : dist (x1 e) xbar ≤ L1 * ‖e‖ := by rw [← hez]; exact l1 e he1
  have b2 : dist (s2 e) sbar ≤ L2 * ‖e‖ := by rw [← hez]; exact l2 e he2
  have b3 : dist (s3 e) sbar ≤ L3 * ‖e‖ := by rw [← hez]; exact l3 e he3
  have b2x : dist (dr z (s2 e)) xbar ≤ L4 * L2 * ‖e‖ := by
    have := l4 (s2 e) (lt_of_le_of_lt b2 he5)
    refine this.trans ?_
    rw [mul_assoc]
    exact mul_le_mul_of_nonneg_left b2 hL4.le
  have b3n : ∀ n, dist ((fun s => g z s (dr z s) z)^[n] (s3 e)) sbar ≤ B * L3 * r ^ n * ‖e‖ := by
    intro n
    refine (hrate (s3 e) (lt_of_le_of_lt b3 he4) n).trans ?_
    calc B * r ^ n * dist (s3 e) sbar ≤ B * r ^ n * (L3 * ‖e‖) :=
          mul_le_mul_of_nonneg_left b3 (by positivity)
      _ = B * L3 * r ^ n * ‖e‖ := by ring
  have b3x : ∀ n, dist (dr z ((fun s => g z s (dr z s) z)^[n] (s3 e))) xbar ≤ L4 * (B * L3) * r ^ n * ‖e‖ := by
    intro n
    have hlt : dist ((fun s => g z s (dr z s) z)^[n] (s3 e)) sbar < δ4 := by
      refine lt_of_le_of_lt (b3n n) (lt_of_le_of_lt ?_ he6)
      have : r ^ n ≤ 1 := pow_le_one₀ hr0.le hr1.le
      have h2 : B * L3 * r ^ n ≤ B * L3 * 1 := mul_le_mul_of_nonneg_left this (by positivity)
      rw [mul_one] at h2
      exact mul_le_mul_of_nonneg_right h2 n0
    refine (l4 _ hlt).trans ?_
    calc L4 * dist ((fun s => g z s (dr z s) z)^[n] (s3 e)) sbar ≤ L4 * (B * L3 * r ^ n * ‖e‖) :=
          mul_le_mul_of_nonneg_left (b3n n) hL4.le
      _ = _ := by ring
  -- comparison of constants
  have hr3 : 0 < r ^ 3 := by positivity
  have hlow : ∀ t ≤ 3, E ≤ E / r ^ 3 * r ^ t := by
    intro t ht
    rw [div_mul_eq_mul_div, le_div_iff₀ hr3]
    exact mul_le_mul_of_nonneg_left (pow_le_pow_of_le_one hr0.le hr1.le ht) hE0.le
  have cmp : ∀ (t : ℕ) (c : ℝ), t ≤ 3 → c ≤ E → c * ‖e‖ ≤ E / r ^ 3 * r ^ t * ‖e‖ := fun t c ht hc =>
    mul_le_mul_of_nonneg_right (hc.trans (hlow t ht)) n0
  have cmp3 : ∀ (n : ℕ) (c : ℝ), c ≤ E → c * r ^ n * ‖e‖ ≤ E / r ^ 3 * r ^ (n + 3) * ‖e‖ := by
    intro n c hc
    have : E / r ^ 3 * r ^ (n + 3) = E * r ^ n := by rw [pow_add]; field_simp
    rw [this]
    exact mul_le_mul_of_nonneg_right (mul_le_mul_of_nonneg_right hc (by positivity)) n0
  have q1 : 0 ≤ B * L3 := by positivity
  have q2 : 0 ≤ L4 * L2 := by positivity
  have q3 : 0 ≤ L4 * (B * L3) := by positivity
  have eE : E = L1 + L2 + B * L3 + (L4 * L2 + L4 * (B * L3)) := by rw [hE]; ring
  have pos : ∀ t : ℕ, 0 ≤ E / r ^ 3 * r ^ t * ‖e‖ := fun t => by positivity
  -- the path
  obtain ⟨n, rfl⟩ : ∃ n, T = n + 2 := ⟨T - 2, by omega⟩
  have hms : iidResponse (n + 2 - 1) e = .ok (z :: e :: List.replicate n z) := by
    simp only [iidResponse, if_neg (by omega : ¬ n + 2 - 1 = 0)]
    congr 1
    refine List.ext_getElem (by simp) fun i h1 h2 => ?_
    rcases i with _ | _ | i
    · simp [hz]
    · simp
    · simp [hz]
  have hs1 : g z sbar (dr z sbar) z = sbar := by rw [h.rule]; exact h.steady
  refine ⟨simLoop g dr z sbar (z :: e :: List.replicate n z), ?_, ?_, fun t p hp => ?_⟩
  · rw [show n + 2 - 1 = n + 1 from rfl] at hms
    simp [modelResponse, hms, simulateDriven, firstRows, bind, Except.bind, pure, Except.pure]
  · rw [simLoop_len]; simp
  · simp only [simLoop, hs1] at hp
    rcases t with _ | _ | t
    · simp only [List.getElem?_cons_zero, Option.some.injEq] at hp
      rw [← hp]
      have h0 : dr z sbar = xbar := h.rule
      simp only [h0, dist_self]
      exact ⟨pos 0, pos 0⟩
    · simp only [zero_add, List.getElem?_cons_succ, List.getElem?_cons_zero, Option.some.injEq] at hp
      rw [← hp]
      simp only [dist_self]
      refine ⟨pos _, b1.trans (cmp _ _ (by omega) ?_)⟩
      rw [eE]; linarith
    · simp only [List.getElem?_cons_succ] at hp
      cases n with
      | zero => simp [simLoop] at hp
      | succ n =>
        rw [List.replicate_succ, simLoop] at hp
        rcases t with _ | t
        · simp only [List.getElem?_cons_zero, Option.some.injEq] at hp
          rw [← hp]
          refine ⟨b2.trans (cmp _ _ (by omega) ?_), b2x.trans (cmp _ _ (by omega) ?_)⟩
          · rw [eE]; linarith
          · rw [eE]; linarith
        · simp only [List.getElem?_cons_succ] at hp
          have ep := simLoop_const g dr z (s3 e) n t p hp
          rw [ep]
          refine ⟨(b3n t).trans (cmp3 t _ ?_), (b3x t).trans (cmp3 t _ ?_)⟩
          · rw [eE]; linarith
          · rw [eE]; linarith

/-- **C116, eigenvalues.**  When the ordered decomposition is triangular and the first `n_s` generalised
eigenvalues are above one (in the code's convention), all eigenvalues of the transition matrix of the solution,
complex ones included, are below one in modulus. -/
theorem C116_stable {f_s : Matrix (Fin nx) (Fin ns) ℝ} {f_x : Matrix (Fin nx) (Fin nx) ℝ}
    {f_S : Matrix (Fin nx) (Fin ns) ℝ} {f_X : Matrix (Fin nx) (Fin nx) ℝ}
    {solve : MatSolver ℝ} (hsolve : solve.Correct)
    {qz : Matrix (Fin ns ⊕ Fin nx) (Fin ns ⊕ Fin nx) ℝ → Matrix (Fin ns ⊕ Fin nx) (Fin ns ⊕ Fin nx) ℝ → ℝ →
      QZ (Fin ns ⊕ Fin nx) ℝ}
    (hqz : (qz (pencilA f_S f_X) (pencilB g_s g_x f_s f_x) (1 - 1 / 10 ^ 8)).Correct
      (pencilA f_S f_X) (pencilB g_s g_x f_s f_x))
    (cut : WithTop ℝ → WithTop ℝ → ℝ) (r : FirstOrder ns nx ℝ)
    (h : approximate1stOrder solve qz cut g_s g_x f_s f_x f_S f_X = .ok r) :
    let d := qz (pencilA f_S f_X) (pencilB g_s g_x f_s f_x) (1 - 1 / 10 ^ 8)
    d.Triangular → (∀ i, 1 < genEig d (.inl i)) →
    ∀ z : ℂ, IsEigenvalue (g_s + g_x * r.C) z → ‖z‖ < 1 := by
  intro d ht hbig z hz
  obtain ⟨hok, -, h1, -, -⟩ := approximate_ok h
  obtain ⟨h2, h3⟩ := rule_eq hsolve h1
  change IsUnit d.Z.toBlocks₁₁.det at h2
  have hSne : ∀ i, d.S (.inl i) (.inl i) ≠ 0 := by
    intro i h0
    have := hbig i
    unfold genEig at this
    split_ifs at this with hT
    · exact diag_ne hok _ ⟨h0, hT⟩
    · rw [h0, zero_div, abs_zero] at this
      have h' := WithTop.coe_lt_coe.1 (show ((1 : ℝ) : WithTop ℝ) < ((0 : ℝ) : WithTop ℝ) from this)
      exact absurd h' (not_lt.2 zero_le_one)
  have hsp : d.Split := by
    refine ⟨?_, ?_, ?_⟩
    · ext i j; simp [toBlocks₂₁, ht.S21]
    · ext i j; simp [toBlocks₂₁, ht.T21]
    · rw [tri_det _ (fun i j hij => by simp [toBlocks₁₁, ht.S11 i j hij]), isUnit_iff_ne_zero,
        Finset.prod_ne_zero_iff]
      intro i _
      exact hSne i
  have hP := transition_eq hqz hsp h3
  change _ * d.Z.toBlocks₁₁ = d.Z.toBlocks₁₁ * (d.S.toBlocks₁₁⁻¹ * d.T.toBlocks₁₁) at hP
  set P := g_s + g_x * r.C with hPdef
  set Z1 := d.Z.toBlocks₁₁ with hZ1
  set S1 := d.S.toBlocks₁₁ with hS1
  set T1 := d.T.toBlocks₁₁ with hT1
  -- S Z⁻¹ P = T Z⁻¹
  have e : S1 * Z1⁻¹ * P = T1 * Z1⁻¹ := by
    have e1 : S1 * Z1⁻¹ * P * Z1 = T1 := by
      rw [Matrix.mul_assoc, Matrix.mul_assoc, hP, ← Matrix.mul_assoc Z1⁻¹, nonsing_inv_mul _ h2, Matrix.one_mul,
        ← Matrix.mul_assoc, mul_nonsing_inv _ hsp.hS11, Matrix.one_mul]
    rw [← e1, Matrix.mul_assoc _ Z1, mul_nonsing_inv _ h2, Matrix.mul_one]
  obtain ⟨v, hv, hzv⟩ := hz
  let φ : Matrix (Fin ns) (Fin ns) ℝ → Matrix (Fin ns) (Fin ns) ℂ := fun M => M.map Complex.ofReal
  have hmul : ∀ M N, φ (M * N) = φ M * φ N := fun M N =>
    map_mul (Complex.ofRealHom.mapMatrix (m := Fin ns)) M N
  have hone : φ 1 = 1 := map_one (Complex.ofRealHom.mapMatrix (m := Fin ns))
  set w := φ Z1⁻¹ *ᵥ v with hw
  have hw0 : w ≠ 0 := by
    intro h0
    apply hv
    have : φ Z1 *ᵥ w = v := by
      rw [hw, Matrix.mulVec_mulVec, ← hmul, mul_nonsing_inv _ h2, hone, Matrix.one_mulVec]
    rw [← this, h0, Matrix.mulVec_zero]
  have e2 : φ T1 *ᵥ w = z • (φ S1 *ᵥ w) := by
    have := congrArg (fun M => φ M *ᵥ v) e
    simp only [hmul] at this
    rw [← Matrix.mulVec_mulVec, ← Matrix.mulVec_mulVec, hzv, Matrix.mulVec_smul, Matrix.mulVec_smul,
      ← Matrix.mulVec_mulVec] at this
    exact this.symm
  have e3 : (φ T1 - z • φ S1) *ᵥ w = 0 := by
    rw [Matrix.sub_mulVec, e2, Matrix.smul_mulVec, sub_self]
  have e4 : (φ T1 - z • φ S1).det = 0 := Matrix.exists_mulVec_eq_zero_iff.1 ⟨w, hw0, e3⟩
  rw [det_of_isUpperTriangular (fun i j hij => by
    have hij' : j < i := hij
    simp [φ, hT1, hS1, toBlocks₁₁, ht.S11 i j hij', ht.T11 i j hij'])] at e4
  obtain ⟨i, -, hi⟩ := Finset.prod_eq_zero_iff.1 e4
  simp only [φ, hT1, hS1, toBlocks₁₁, Matrix.sub_apply, Matrix.map_apply, Matrix.of_apply, Matrix.smul_apply,
    smul_eq_mul] at hi
  have hzr : z = ((d.T (.inl i) (.inl i) / d.S (.inl i) (.inl i) : ℝ) : ℂ) := by
    rw [Complex.ofReal_div, eq_div_iff (by exact_mod_cast hSne i)]
    exact (sub_eq_zero.1 hi).symm
  rw [hzr, Complex.norm_real, Real.norm_eq_abs]
  have hb := hbig i
  unfold genEig at hb
  split_ifs at hb with h0
  · rw [h0, zero_div, abs_zero]; exact zero_lt_one
  · have hb' : (1 : ℝ) < |d.S (.inl i) (.inl i) / d.T (.inl i) (.inl i)| :=
      WithTop.coe_lt_coe.1 (show ((1 : ℝ) : WithTop ℝ) < _ from hb)
    rw [← inv_div, abs_inv]
    exact inv_lt_one_of_one_lt₀ hb'

/-- **C116, from `perturb` to `response`.**  For every smooth model with iid shocks centred at zero: when the
rule comes from `perturb`, the ordered decomposition is triangular and its first `n_s` generalised eigenvalues
are above one, the response to every small enough impulse dies out geometrically. -/
theorem C116_perturb_response (rho : Fin nm → Fin nm → ℝ) (mu : Fin nm → ℝ)
    {solve : MatSolver ℝ} (hsolve : solve.Correct)
    (qz : ∀ ns nx : ℕ, Matrix (Fin ns ⊕ Fin nx) (Fin ns ⊕ Fin nx) ℝ →
      Matrix (Fin ns ⊕ Fin nx) (Fin ns ⊕ Fin nx) ℝ → ℝ → QZ (Fin ns ⊕ Fin nx) ℝ)
    (cut : WithTop ℝ → WithTop ℝ → ℝ) (dv : Derivs nm ns nx ℝ)
    (hqz : let d := qz ns nx (pencilA dv.f_S dv.f_X) (pencilB dv.g_s dv.g_x dv.f_s dv.f_x) (1 - 1 / 10 ^ 8)
      d.Correct (pencilA dv.f_S dv.f_X) (pencilB dv.g_s dv.g_x dv.f_s dv.f_x) ∧ d.Triangular ∧
        ∀ i, 1 < genEig d (.inl i))
    (t : BiTaylor nm ns nx ℝ) (h : perturb1 solve qz cut .iid dv (fun _ => 0) sbar xbar = .ok t)
    (hdr : ∀ m s, t.evalMS (.vec m) (.vec s) = .ok (.vec (dr m s)))
    (hsteady : g (fun _ => 0) sbar xbar (fun _ => 0) = sbar)
    (hg : ∃ G : (Fin nm → ℝ) × (Fin ns → ℝ) × (Fin nx → ℝ) × (Fin nm → ℝ) →L[ℝ] (Fin ns → ℝ), HasFDerivAt
      (fun p : (Fin nm → ℝ) × (Fin ns → ℝ) × (Fin nx → ℝ) × (Fin nm → ℝ) => g p.1 p.2.1 p.2.2.1 p.2.2.2) G
      ((fun _ => 0), sbar, xbar, (fun _ => 0)) ∧
      ∀ ds dx, G (0, ds, dx, 0) = dv.g_s *ᵥ ds + dv.g_x *ᵥ dx) :
    ∃ δ > 0, ∃ D > 0, ∃ r, 0 < r ∧ r < 1 ∧ ∀ e : Fin nm → ℝ, ‖e‖ < δ → ∀ T, 2 ≤ T →
      ∃ sim, modelResponse .iid rho mu g dr sbar T e = .ok sim ∧ sim.length = T ∧
        ∀ (t : ℕ) (p : (Fin ns → ℝ) × (Fin nx → ℝ)), sim[t]? = some p →
          dist p.1 sbar ≤ D * r ^ t * ‖e‖ ∧ dist p.2 xbar ≤ D * r ^ t * ‖e‖ := by
  unfold perturb1 at h
  rcases hr : approximate1stOrder solve (qz ns nx) cut dv.g_s dv.g_x dv.f_s dv.f_x dv.f_S dv.f_X with er | r
  · simp [hr, bind, Except.bind] at h
  simp only [hr, bind, Except.bind, pure, Except.pure, Except.ok.injEq] at h
  have hC := C116_stable hsolve hqz.1 cut r hr hqz.2.1 hqz.2.2
  have hval : ∀ m s, dr m s = xbar + r.C *ᵥ (s - sbar) := by
    intro m s
    have h1 := hdr m s
    rw [((C35_points t).2.1 (by rw [← h]) m s).1] at h1
    simp only [Except.ok.injEq, Arg.vec.injEq] at h1
    rw [← h1, ← h]
  refine C116_response rho mu (g_s := dv.g_s) (g_x := dv.g_x) (C := r.C) ⟨?_, hsteady, ?_, hg⟩ hC
  · rw [hval]; simp
  · let L : (Fin ns → ℝ) →L[ℝ] (Fin nx → ℝ) := LinearMap.toContinuousLinearMap (Matrix.mulVecLin r.C)
    refine ⟨L.comp (ContinuousLinearMap.snd ℝ _ _), ?_, fun ds => rfl⟩
    have e : (fun p : (Fin nm → ℝ) × (Fin ns → ℝ) => dr p.1 p.2)
        = fun p => xbar + L (p.2 - sbar) := by
      funext p
      rw [hval]; rfl
    rw [e]
    have h1 : HasFDerivAt (fun p : (Fin nm → ℝ) × (Fin ns → ℝ) => p.2 - sbar)
        (ContinuousLinearMap.snd ℝ _ _) ((fun _ => (0 : ℝ)), sbar) := hasFDerivAt_snd.sub_const sbar
    exact (L.hasFDerivAt.comp _ h1).const_add xbar

/-- **C116 fails without the eigenvalue condition.**  There is a model for which `perturb` returns a rule
without complaint although it is explosive: the response to an impulse `e` grows as `2^t e`. -/
theorem C116_explosive_fails :
    ∃ (dv : Derivs 1 2 1 ℚ) (solve : MatSolver ℚ) (d : QZ (Fin 2 ⊕ Fin 1) ℚ)
      (qz : ∀ ns nx : ℕ, Matrix (Fin ns ⊕ Fin nx) (Fin ns ⊕ Fin nx) ℚ →
        Matrix (Fin ns ⊕ Fin nx) (Fin ns ⊕ Fin nx) ℚ → ℚ → QZ (Fin ns ⊕ Fin nx) ℚ)
      (cut : WithTop ℚ → WithTop ℚ → ℚ) (t : BiTaylor 1 2 1 ℚ)
      (dr : (Fin 1 → ℚ) → (Fin 2 → ℚ) → Fin 1 → ℚ) (v : Fin 2 → ℚ),
      solve.Correct ∧ (∀ A B c, qz 2 1 A B c = d) ∧
      d.Correct (pencilA dv.f_S dv.f_X) (pencilB dv.g_s dv.g_x dv.f_s dv.f_x) ∧ d.Triangular ∧
      perturb1 solve qz cut .iid dv 0 0 0 = .ok t ∧
      (∀ m s, t.evalMS (.vec m) (.vec s) = .ok (.vec (dr m s))) ∧ v ≠ 0 ∧
      ∀ (e : ℚ) (T : ℕ), 2 ≤ T → ∃ sim,
        modelResponse .iid 0 0
          (fun m s x M => dv.g_m *ᵥ m + dv.g_s *ᵥ s + dv.g_x *ᵥ x + dv.g_M *ᵥ M) dr 0 T (fun _ => e)
          = .ok sim ∧ sim.length = T ∧
        ∀ (n : ℕ) (p : (Fin 2 → ℚ) × (Fin 1 → ℚ)), sim[n + 2]? = some p → p.1 = (2 ^ n * e) • v := by
  obtain ⟨g_s, g_x, f_s, f_x, f_S, f_X, solve, d, r, h1, h2, -, h3, h4, -, -, -, h5⟩ := C34_fails
  obtain ⟨v, hv, hv2⟩ := Matrix.exists_mulVec_eq_zero_iff.2 h5
  have hv3 : (g_s + g_x * r.C) *ᵥ v = (2 : ℚ) • v := by
    rw [Matrix.sub_mulVec, Matrix.smul_mulVec, Matrix.one_mulVec] at hv2
    exact sub_eq_zero.1 hv2
  let dv : Derivs 1 2 1 ℚ := ⟨0, f_s, f_x, 0, f_S, f_X, 0, g_s, g_x, Matrix.of fun i _ => v i⟩
  let qz : ∀ ns nx : ℕ, Matrix (Fin ns ⊕ Fin nx) (Fin ns ⊕ Fin nx) ℚ →
        Matrix (Fin ns ⊕ Fin nx) (Fin ns ⊕ Fin nx) ℚ → ℚ → QZ (Fin ns ⊕ Fin nx) ℚ := fun ns nx _ _ _ =>
    if h : ns = 2 ∧ nx = 1 then h.1 ▸ h.2 ▸ d else ⟨0, 0, 0, 0⟩
  let dr : (Fin 1 → ℚ) → (Fin 2 → ℚ) → Fin 1 → ℚ := fun _ s => r.C *ᵥ s
  let t : BiTaylor 1 2 1 ℚ := ⟨0, 0, 0, none, r.C⟩
  refine ⟨dv, solve, d, qz, fun _ _ => 0, t, dr, v, h1, fun A B c => by simp [qz], h2, h3, ?_, ?_, hv, ?_⟩
  · have : approximate1stOrder solve (qz 2 1) (fun _ _ => 0) dv.g_s dv.g_x dv.f_s dv.f_x dv.f_S dv.f_X = .ok r := by
      have e : qz 2 1 = fun _ _ _ => d := by funext A B c; simp [qz]
      rw [e]; exact h4
    simp [perturb1, this, bind, Except.bind, pure, Except.pure, t]
  · intro m s
    rw [((C35_points t).2.1 rfl m s).1]
    simp [t, dr]
  · intro e T hT
    obtain ⟨n, rfl⟩ : ∃ n, T = n + 2 := ⟨T - 2, by omega⟩
    set g : (Fin 1 → ℚ) → (Fin 2 → ℚ) → (Fin 1 → ℚ) → (Fin 1 → ℚ) → Fin 2 → ℚ :=
      fun m s x M => dv.g_m *ᵥ m + dv.g_s *ᵥ s + dv.g_x *ᵥ x + dv.g_M *ᵥ M with hg
    have hms : iidResponse (n + 1) (fun _ : Fin 1 => e) = .ok ((fun _ => 0) :: (fun _ => e) :: List.replicate n fun _ => 0) := by
      simp only [iidResponse, if_neg (by omega : ¬ n + 1 = 0)]
      congr 1
      refine List.ext_getElem (by simp) fun i h1 h2 => ?_
      rcases i with _ | _ | i <;> simp
    have gM : ∀ c : ℚ, dv.g_M *ᵥ (fun _ => c) = c • v := by
      intro c
      funext i
      simp [dv, Matrix.mulVec, dotProduct, mul_comm]
    have gv : ∀ (m : Fin 1 → ℚ) (c b : ℚ), g m (c • v) (r.C *ᵥ (c • v)) (fun _ => b) = (2 * c + b) • v := by
      intro m c b
      have : dv.g_s *ᵥ (c • v) + dv.g_x *ᵥ (r.C *ᵥ (c • v)) = (2 * c) • v := by
        have e1 : dv.g_s *ᵥ (c • v) + dv.g_x *ᵥ (r.C *ᵥ (c • v)) = (g_s + g_x * r.C) *ᵥ (c • v) := by
          rw [Matrix.add_mulVec, Matrix.mulVec_mulVec]
        rw [e1, Matrix.mulVec_smul, hv3, smul_smul, mul_comm]
      simp only [hg]
      have e0 : dv.g_m *ᵥ m = 0 := Matrix.zero_mulVec m
      rw [e0, zero_add, this, gM, add_smul]
    have step : ∀ (m0 : Fin 1 → ℚ) (c : ℚ) (k j : ℕ) (p : (Fin 2 → ℚ) × (Fin 1 → ℚ)),
        (simLoop g dr m0 (c • v) (List.replicate k fun _ => 0))[j]? = some p → p.1 = (2 ^ j * c) • v := by
      intro m0 c k
      induction k generalizing m0 c with
      | zero => intro j p hp; simp [simLoop] at hp
      | succ k ih =>
        intro j p hp
        rw [List.replicate_succ, simLoop] at hp
        have e1 : g m0 (c • v) (dr (fun _ => 0) (c • v)) (fun _ => 0) = (2 * c) • v := by
          have := gv m0 c 0
          rw [add_zero] at this
          exact this
        simp only [e1] at hp
        cases j with
        | zero =>
          simp only [List.getElem?_cons_zero, Option.some.injEq] at hp
          rw [← hp]; simp
        | succ j =>
          simp only [List.getElem?_cons_succ] at hp
          rw [ih _ _ j p hp, pow_succ]
          congr 1; ring
    refine ⟨simLoop g dr (fun _ => 0) 0 ((fun _ => 0) :: (fun _ => e) :: List.replicate n fun _ => 0), ?_, ?_,
      fun k p hp => ?_⟩
    · simp [modelResponse, hms, simulateDriven, firstRows, bind, Except.bind, pure, Except.pure]
    · rw [simLoop_len]; simp
    · have e0 : (0 : Fin 2 → ℚ) = (0 : ℚ) • v := by simp
      have s1 : g (fun _ => 0) 0 (dr (fun _ => 0) 0) (fun _ => 0) = 0 := by
        have := gv (fun _ => 0) 0 0
        rw [mul_zero, zero_add, ← e0] at this
        exact this
      have s2 : g (fun _ => 0) 0 (dr (fun _ => e) 0) (fun _ => e) = e • v := by
        have := gv (fun _ => 0) 0 e
        rw [mul_zero, zero_add, ← e0] at this
        exact this
      simp only [simLoop, s1, s2, List.getElem?_cons_succ] at hp
      exact step _ _ _ _ _ hp

/-- A nonlinear model with one state and one control: `s' = s/2 + x + x s + M`, `x = -s/4`. -/
example : ∃ δ > 0, ∃ D > 0, ∃ r, 0 < r ∧ r < 1 ∧ ∀ e : Fin 1 → ℝ, ‖e‖ < δ → ∀ T, 2 ≤ T →
    ∃ sim, modelResponse .iid 0 0 (fun _ s x M i => s i / 2 + x i + x i * s i + M i)
        (fun (_ : Fin 1 → ℝ) (s : Fin 1 → ℝ) (i : Fin 1) => -(s i) / 4) 0 T e = .ok sim ∧ sim.length = T ∧
      ∀ (t : ℕ) (p : (Fin 1 → ℝ) × (Fin 1 → ℝ)), sim[t]? = some p →
        dist p.1 0 ≤ D * r ^ t * ‖e‖ ∧ dist p.2 0 ≤ D * r ^ t * ‖e‖ := by
  refine C116_response 0 0 (g_s := !![1/2]) (g_x := !![1]) (C := !![-(1/4)]) ⟨?_, ?_, ?_, ?_⟩ ?_
  · funext i; simp
  · funext i; simp
  · let L : (Fin 1 → ℝ) × (Fin 1 → ℝ) →L[ℝ] (Fin 1 → ℝ) := ContinuousLinearMap.pi fun i =>
      (-(1/4) : ℝ) • ((ContinuousLinearMap.proj (R := ℝ) (φ := fun _ : Fin 1 => ℝ) i).comp
        (ContinuousLinearMap.snd ℝ (Fin 1 → ℝ) (Fin 1 → ℝ)))
    refine ⟨L, ?_, ?_⟩
    · refine L.hasFDerivAt.congr_of_eventuallyEq (Filter.Eventually.of_forall fun p => ?_)
      funext i
      simp [L]
      ring
    · intro ds
      funext i
      fin_cases i
      simp [L, Matrix.mulVec, dotProduct]
  · let E := (Fin 1 → ℝ) × (Fin 1 → ℝ) × (Fin 1 → ℝ) × (Fin 1 → ℝ)
    let π (i : Fin 1) := ContinuousLinearMap.proj (R := ℝ) (φ := fun _ : Fin 1 => ℝ) i
    let πs (i : Fin 1) : E →L[ℝ] ℝ := (π i).comp ((ContinuousLinearMap.fst ℝ _ _).comp (ContinuousLinearMap.snd ℝ _ _))
    let πx (i : Fin 1) : E →L[ℝ] ℝ := (π i).comp ((ContinuousLinearMap.fst ℝ _ _).comp
      ((ContinuousLinearMap.snd ℝ _ _).comp (ContinuousLinearMap.snd ℝ _ _)))
    let πm (i : Fin 1) : E →L[ℝ] ℝ := (π i).comp ((ContinuousLinearMap.snd ℝ _ _).comp
      ((ContinuousLinearMap.snd ℝ _ _).comp (ContinuousLinearMap.snd ℝ _ _)))
    let pt : E := ((fun _ => 0), 0, 0, (fun _ => 0))
    have hp : ∀ i, HasFDerivAt (fun p : E => p.2.1 i / 2 + p.2.2.1 i + p.2.2.1 i * p.2.1 i + p.2.2.2 i)
        ((1 / 2 : ℝ) • πs i + πx i + πm i) pt := by
      intro i
      have h1 : HasFDerivAt (fun p : E => p.2.1 i) (πs i) pt := (πs i).hasFDerivAt
      have h2 : HasFDerivAt (fun p : E => p.2.2.1 i) (πx i) pt := (πx i).hasFDerivAt
      have h3 : HasFDerivAt (fun p : E => p.2.2.2 i) (πm i) pt := (πm i).hasFDerivAt
      refine ((((h1.const_smul (1 / 2 : ℝ)).add h2).add (h2.mul h1)).add h3).congr_of_eventuallyEq
        (Filter.Eventually.of_forall fun p => ?_) |>.congr_fderiv ?_
      · simp only [Pi.add_apply, Pi.smul_apply, Pi.mul_apply, smul_eq_mul]
        ring
      · ext v <;> simp [pt]
    refine ⟨ContinuousLinearMap.pi fun i => (1 / 2 : ℝ) • πs i + πx i + πm i, ?_, ?_⟩
    · exact hasFDerivAt_pi.2 hp
    · intro ds dx
      funext i
      fin_cases i
      simp [πs, πx, πm, π, dotProduct]
  · rintro z ⟨v, hv, h⟩
    have h0 := congrFun h 0
    have hne : v 0 ≠ 0 := by
      intro h1
      apply hv
      funext i
      rw [Subsingleton.elim i 0, h1]; rfl
    have e : (!![(1 : ℝ)/2] + !![(1 : ℝ)] * !![-((1 : ℝ)/4)]) 0 0 = 1 / 4 := by
      simp; norm_num
    simp only [Matrix.mulVec, dotProduct, Finset.univ_unique, Fin.default_eq_zero, Finset.sum_singleton,
      Matrix.map_apply, e, Pi.smul_apply, smul_eq_mul] at h0
    have := mul_right_cancel₀ hne h0
    rw [← this, Complex.norm_real]
    norm_num

open Classical in
/-- An exact linear solver. -/
noncomputable def realSolver : MatSolver ℝ := fun _ _ M R =>
  if IsUnit M.det then .ok (M⁻¹ * R) else .error .linAlgError

/-- The hypotheses of `C116_stable` are met by a model with one
stable state and one control. -/
example : let dv : Derivs 1 1 1 ℝ := ⟨0, 0, 1, 0, 0, !![-(1/2)], 0, !![1/2], 0, !![1]⟩
    let A := pencilA dv.f_S dv.f_X
    let B := pencilB dv.g_s dv.g_x dv.f_s dv.f_x
    let d : QZ (Fin 1 ⊕ Fin 1) ℝ := ⟨A, B, 1, 1⟩
    realSolver.Correct ∧ d.Correct A B ∧ d.Triangular ∧ (∀ i, 1 < genEig d (.inl i)) ∧
    ∃ r, approximate1stOrder realSolver (fun _ _ _ => d) (fun _ _ => 0) dv.g_s dv.g_x dv.f_s dv.f_x
      dv.f_S dv.f_X = .ok r := by
  intro dv A B d
  have hs : realSolver.Correct := by
    intro n m M R X h
    unfold realSolver at h
    split_ifs at h with hM
    simp only [Except.ok.injEq] at h
    refine ⟨hM, ?_⟩
    rw [← h, ← Matrix.mul_assoc, mul_nonsing_inv _ hM, Matrix.one_mul]
  have e1 : genEig d (.inl 0) = ((2 : ℝ) : WithTop ℝ) := by
    simp [genEig, d, A, B, dv, pencilA, pencilB]
  have e2 : genEig d (.inr 0) = ((1 / 2 : ℝ) : WithTop ℝ) := by
    simp [genEig, d, A, B, dv, pencilA, pencilB]
  refine ⟨hs, ⟨by simp [d], by simp [d], by simp [d], by simp [d]⟩, ⟨?_, ?_, ?_, ?_, ?_, ?_⟩, ?_,
    ⟨0, (eigList d).mergeSort (fun a b => decide (a ≤ b)), false⟩, ?_⟩
  · intro i j; simp [d, A, dv, pencilA]
  · intro i j; simp [d, B, dv, pencilB]
  · intro i j hij; exact absurd hij (by rw [Subsingleton.elim i j]; exact lt_irrefl _)
  · intro i j hij; exact absurd hij (by rw [Subsingleton.elim i j]; exact lt_irrefl _)
  · intro i j hij; exact absurd hij (by rw [Subsingleton.elim i j]; exact lt_irrefl _)
  · intro i j hij; exact absurd hij (by rw [Subsingleton.elim i j]; exact lt_irrefl _)
  · intro i
    rw [Subsingleton.elim i 0, e1]
    exact_mod_cast (by norm_num : (1 : ℝ) < 2)
  · have h1 : diagOk d = true := by
      simp [diagOk, d, A, B, dv, pencilA, pencilB]; norm_num
    have h2 : bkTest d = .ok true := by
      have h3 : (1 : WithTop ℝ) ≤ ((2 : ℝ) : WithTop ℝ) := by exact_mod_cast (by norm_num : (1 : ℝ) ≤ 2)
      have h4 : ((1 / 2 : ℝ) : WithTop ℝ) < 1 := by exact_mod_cast (by norm_num : (1 / 2 : ℝ) < 1)
      unfold bkTest
      rw [take_eigList, drop_eigList]
      simp only [List.ofFn_succ, List.ofFn_zero, e1, e2, pyMax, pyMin, List.foldl_nil, bind, Except.bind, h3,
        if_true, pure, Except.pure, h4, decide_true]
    have h3 : ruleFromQZ realSolver d = .ok 0 := by
      unfold ruleFromQZ
      have hz : d.Z = 1 := rfl
      have hb : (1 : Matrix (Fin 1 ⊕ Fin 1) (Fin 1 ⊕ Fin 1) ℝ).toBlocks₁₁ = 1 ∧
          (1 : Matrix (Fin 1 ⊕ Fin 1) (Fin 1 ⊕ Fin 1) ℝ).toBlocks₂₁ = 0 := by
        rw [← fromBlocks_one]
        exact ⟨toBlocks_fromBlocks₁₁ _ _ _ _, toBlocks_fromBlocks₂₁ _ _ _ _⟩
      simp [hz, hb, realSolver, bind, Except.bind, pure, Except.pure]
    unfold approximate1stOrder selectRule
    simp [h1, h2, h3, bind, Except.bind, pure, Except.pure]

end Dolo
