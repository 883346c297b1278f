import Verif.Lemmas.Sensitivity

/-!
# C155: small changes of the model change the rule and its paths little
-/

set_option linter.unusedSectionVars false

namespace Dolo

open Matrix Polynomial

/-! ### Specification -/

/-- All entries of the two matrices are within `η`. -/
def Close {I J : Type} (η : ℝ) (A A' : Matrix I J ℝ) : Prop := ∀ i j, |A' i j - A i j| ≤ η

/-! ### Paths -/

private theorem geom_le {r : ℝ} (h0 : 0 ≤ r) (h1 : r < 1) (t : ℕ) : ∑ k ∈ Finset.range t, r ^ (t - 1 - k) ≤ 1 / (1 - r) := by
  rw [Finset.sum_range_reflect (fun k => r ^ k) t, geom_sum_eq h1.ne]
  have : 0 < 1 - r := by linarith
  rw [← neg_div_neg_eq, neg_sub, neg_sub]
  exact div_le_div_of_nonneg_right (by linarith [pow_nonneg h0 t]) this.le

private theorem close_mulVec {m n : ℕ} {η : ℝ} {A A' : Matrix (Fin m) (Fin n) ℝ} (hη : 0 ≤ η) (h : Close η A A') (v : Fin n → ℝ) :
    ‖A' *ᵥ v - A *ᵥ v‖ ≤ n * η * ‖v‖ := by
  rw [pi_norm_le_iff_of_nonneg (by positivity)]
  intro i
  rw [← sub_mulVec, Real.norm_eq_abs]
  have h1 : |((A' - A) *ᵥ v) i| ≤ ∑ j, |(A' - A) i j * v j| := by
    simp only [Matrix.mulVec, dotProduct]
    exact Finset.abs_sum_le_sum_abs _ _
  refine h1.trans ?_
  have h2 : ∀ j ∈ Finset.univ, |(A' - A) i j * v j| ≤ η * ‖v‖ := fun j _ => by
    rw [abs_mul]
    exact mul_le_mul (h i j) (norm_le_pi_norm v j) (abs_nonneg _) hη
  refine (Finset.sum_le_card_nsmul _ _ _ h2).trans ?_
  simp [mul_assoc]

/-- Powers of a matrix close to a stable one. -/
private theorem powers_close {n : ℕ} (P : Matrix (Fin n) (Fin n) ℝ) (hP : ∀ z, IsEigenvalue P z → ‖z‖ < 1) :
    ∃ B > 0, ∃ K > 0, ∃ δ > 0, ∀ η, 0 ≤ η → η ≤ δ → ∀ P', Close η P P' → ∀ (t : ℕ) (v : Fin n → ℝ),
      ‖P' ^ t *ᵥ v‖ ≤ B * ‖v‖ ∧ ‖P' ^ t *ᵥ v - P ^ t *ᵥ v‖ ≤ K * η * ‖v‖ := by
  obtain ⟨c, hc, r, hr0, hr1, hpow⟩ := powers_decay P hP
  have hr : 0 < 1 - r := by linarith
  refine ⟨2 * c, by positivity, 2 * c ^ 2 * (n + 1) / (1 - r), by positivity, (1 - r) / (2 * c * (n + 1)), by positivity,
    fun η hη hδ P' hcl t v => ?_⟩
  have small : c * ((n + 1) * η) / (1 - r) * (2 * c * ‖v‖) ≤ c * ‖v‖ := by
    have h1 : η * (2 * c * (n + 1)) ≤ 1 - r := (le_div_iff₀ (by positivity)).1 hδ
    rw [div_mul_eq_mul_div, div_le_iff₀ hr]
    nlinarith [mul_le_mul_of_nonneg_left h1 (mul_nonneg hc.le (norm_nonneg v))]
  have sol : ∀ t : ℕ, P' ^ t *ᵥ v - P ^ t *ᵥ v
      = ∑ k ∈ Finset.range t, P ^ (t - 1 - k) *ᵥ (P' *ᵥ (P' ^ k *ᵥ v) - P *ᵥ (P' ^ k *ᵥ v)) := by
    intro t
    induction t with
    | zero => simp
    | succ t ih =>
      rw [Finset.sum_range_succ]
      have e : ∑ k ∈ Finset.range t, P ^ (t + 1 - 1 - k) *ᵥ (P' *ᵥ (P' ^ k *ᵥ v) - P *ᵥ (P' ^ k *ᵥ v))
          = P *ᵥ ∑ k ∈ Finset.range t, P ^ (t - 1 - k) *ᵥ (P' *ᵥ (P' ^ k *ᵥ v) - P *ᵥ (P' ^ k *ᵥ v)) := by
        rw [mulVec_sum]
        refine Finset.sum_congr rfl fun k hk => ?_
        have : t + 1 - 1 - k = (t - 1 - k) + 1 := by have := Finset.mem_range.1 hk; omega
        rw [this, pow_succ', ← mulVec_mulVec]
      rw [e, ← ih]
      have e0 : t + 1 - 1 - t = 0 := by omega
      rw [e0, pow_zero, one_mulVec, pow_succ', pow_succ', ← mulVec_mulVec, ← mulVec_mulVec, mulVec_sub]
      abel
  have bound : ∀ t : ℕ, (∀ k < t, ‖P' ^ k *ᵥ v‖ ≤ 2 * c * ‖v‖) →
      ‖P' ^ t *ᵥ v - P ^ t *ᵥ v‖ ≤ c * ((n + 1) * η) / (1 - r) * (2 * c * ‖v‖) := by
    intro t ht
    rw [sol t]
    have h1 : ∀ k ∈ Finset.range t, ‖P ^ (t - 1 - k) *ᵥ (P' *ᵥ (P' ^ k *ᵥ v) - P *ᵥ (P' ^ k *ᵥ v))‖
        ≤ r ^ (t - 1 - k) * (c * ((n + 1) * η) * (2 * c * ‖v‖)) := by
      intro k hk
      refine (hpow _ _).trans ?_
      have h2 := close_mulVec hη hcl (P' ^ k *ᵥ v)
      have h3 : ‖P' *ᵥ (P' ^ k *ᵥ v) - P *ᵥ (P' ^ k *ᵥ v)‖ ≤ (n + 1) * η * (2 * c * ‖v‖) := by
        refine h2.trans (mul_le_mul (mul_le_mul_of_nonneg_right (by linarith) hη) (ht k (Finset.mem_range.1 hk))
          (norm_nonneg _) (by positivity))
      calc c * r ^ (t - 1 - k) * _ ≤ c * r ^ (t - 1 - k) * ((n + 1) * η * (2 * c * ‖v‖)) :=
            mul_le_mul_of_nonneg_left h3 (by positivity)
        _ = _ := by ring
    refine (norm_sum_le _ _).trans ((Finset.sum_le_sum h1).trans ?_)
    rw [← Finset.sum_mul]
    refine (mul_le_mul_of_nonneg_right (geom_le hr0.le hr1 t) (by positivity)).trans (le_of_eq ?_)
    ring
  have all : ∀ t : ℕ, ‖P' ^ t *ᵥ v‖ ≤ 2 * c * ‖v‖ := by
    intro t
    induction t using Nat.strong_induction_on with
    | _ t ih =>
      have h1 := bound t ih
      have h2 : ‖P ^ t *ᵥ v‖ ≤ c * ‖v‖ := by
        refine (hpow t v).trans (mul_le_mul_of_nonneg_right ?_ (norm_nonneg _))
        exact mul_le_of_le_one_right hc.le (pow_le_one₀ hr0.le hr1.le)
      have h3 : ‖P' ^ t *ᵥ v‖ ≤ ‖P' ^ t *ᵥ v - P ^ t *ᵥ v‖ + ‖P ^ t *ᵥ v‖ := by
        simpa using norm_add_le (P' ^ t *ᵥ v - P ^ t *ᵥ v) (P ^ t *ᵥ v)
      linarith
  refine ⟨all t, (bound t fun k _ => all k).trans (le_of_eq ?_)⟩
  ring

private theorem rulePath_eq {ns nx : ℕ} (g_s : Matrix (Fin ns) (Fin ns) ℝ) (g_x : Matrix (Fin ns) (Fin nx) ℝ)
    (C : Matrix (Fin nx) (Fin ns) ℝ) (s0 : Fin ns → ℝ) (t : ℕ) : rulePath g_s g_x C s0 t = (g_s + g_x * C) ^ t *ᵥ s0 := by
  induction t with
  | zero => simp [rulePath]
  | succ t ih => rw [rulePath, ih, pow_succ', mulVec_mulVec]

/-! ### The theorems -/

section
variable {ns nx : ℕ} {g_s : Matrix (Fin ns) (Fin ns) ℝ} {g_x : Matrix (Fin ns) (Fin nx) ℝ}
  {f_s : Matrix (Fin nx) (Fin ns) ℝ} {f_x : Matrix (Fin nx) (Fin nx) ℝ}
  {f_S : Matrix (Fin nx) (Fin ns) ℝ} {f_X : Matrix (Fin nx) (Fin nx) ℝ}

private theorem stable_bounded {C : Matrix (Fin nx) (Fin ns) ℝ} (hP : ∀ z, IsEigenvalue (g_s + g_x * C) z → ‖z‖ < 1)
    (s0 : Fin ns → ℝ) : BoundedSeq (rulePath g_s g_x C s0) := by
  obtain ⟨c, hc, r, hr0, hr1, hpow⟩ := powers_decay _ hP
  refine ⟨c * ‖s0‖, fun t i => ?_⟩
  rw [rulePath_eq]
  refine (norm_le_pi_norm _ i).trans ((hpow t s0).trans (mul_le_mul_of_nonneg_right ?_ (norm_nonneg _)))
  exact mul_le_of_le_one_right hc.le (pow_le_one₀ hr0.le hr1.le)

/-- **C155.**  A model that satisfies the conditions of Blanchard and Kahn: all models with derivatives close enough do so
too, and the rules that `approximate_1st_order` returns for them (by decompositions that are sorted, with a `select` that
tells stable from unstable eigenvalues, see C154) differ from the rule of the model by at most a constant times the
difference of the derivatives; so do states and controls along their paths from any state, at all dates. -/
theorem C155_nearby_partial {solve : MatSolver ℝ} (hsolve : solve.Correct)
    {qz : Matrix (Fin ns ⊕ Fin nx) (Fin ns ⊕ Fin nx) ℝ → Matrix (Fin ns ⊕ Fin nx) (Fin ns ⊕ Fin nx) ℝ → ℝ →
      QZ (Fin ns ⊕ Fin nx) ℝ} (cut : WithTop ℝ → WithTop ℝ → ℝ)
    (hbk : BlanchardKahn g_s g_x f_s f_x f_S f_X)
    (hqz : (qz (pencilA f_S f_X) (pencilB g_s g_x f_s f_x) (1 - 1 / 10 ^ 8)).Correct
      (pencilA f_S f_X) (pencilB g_s g_x f_s f_x))
    (hord : (qz (pencilA f_S f_X) (pencilB g_s g_x f_s f_x) (1 - 1 / 10 ^ 8)).Ordered (1 - 1 / 10 ^ 8))
    (hsel : SelectsStable (1 - 1 / 10 ^ 8) (pencilA f_S f_X) (pencilB g_s g_x f_s f_x))
    (r : FirstOrder ns nx ℝ) (h : approximate1stOrder solve qz cut g_s g_x f_s f_x f_S f_X = .ok r) :
    ∃ L > 0, ∃ δ > 0, ∀ (η : ℝ), 0 ≤ η → η ≤ δ → ∀ (g_s' : Matrix (Fin ns) (Fin ns) ℝ) (g_x' : Matrix (Fin ns) (Fin nx) ℝ)
      (f_s' : Matrix (Fin nx) (Fin ns) ℝ) (f_x' : Matrix (Fin nx) (Fin nx) ℝ)
      (f_S' : Matrix (Fin nx) (Fin ns) ℝ) (f_X' : Matrix (Fin nx) (Fin nx) ℝ),
      Close η g_s g_s' → Close η g_x g_x' → Close η f_s f_s' → Close η f_x f_x' → Close η f_S f_S' → Close η f_X f_X' →
      BlanchardKahn g_s' g_x' f_s' f_x' f_S' f_X' ∧
      ∀ r' : FirstOrder ns nx ℝ,
        (qz (pencilA f_S' f_X') (pencilB g_s' g_x' f_s' f_x') (1 - 1 / 10 ^ 8)).Correct
          (pencilA f_S' f_X') (pencilB g_s' g_x' f_s' f_x') →
        (qz (pencilA f_S' f_X') (pencilB g_s' g_x' f_s' f_x') (1 - 1 / 10 ^ 8)).Ordered (1 - 1 / 10 ^ 8) →
        SelectsStable (1 - 1 / 10 ^ 8) (pencilA f_S' f_X') (pencilB g_s' g_x' f_s' f_x') →
        approximate1stOrder solve qz cut g_s' g_x' f_s' f_x' f_S' f_X' = .ok r' →
        Close (L * η) r.C r'.C ∧ ∀ (s0 : Fin ns → ℝ) (t : ℕ),
          ‖rulePath g_s' g_x' r'.C s0 t - rulePath g_s g_x r.C s0 t‖ ≤ L * η * ‖s0‖ ∧
          ‖r'.C *ᵥ rulePath g_s' g_x' r'.C s0 t - r.C *ᵥ rulePath g_s g_x r.C s0 t‖ ≤ L * η * ‖s0‖ := by
  obtain ⟨hC, hP, -⟩ := C154_saddle_path_partial hsolve hbk hqz hord hsel cut r h
  obtain ⟨L, hL, δ, hδ, hnear⟩ := nearby_rule_entries hC hP hbk
  obtain ⟨B, hB, K, hK, δ2, hδ2, hpow⟩ := powers_close _ hP
  obtain ⟨cC, hcC, hbC⟩ := mulVec_bound r.C
  refine ⟨L + K * L + (ns * L * B + cC * (K * L)), by positivity, min δ (δ2 / L), by positivity,
    fun η hη hle g_s' g_x' f_s' f_x' f_S' f_X' h1 h2 h3 h4 h5 h6 => ?_⟩
  obtain ⟨hbk', C', hC', hP', hcl, hclP⟩ := hnear η hη (hle.trans (min_le_left _ _)) g_s' g_x' f_s' f_x' f_S' f_X' h1 h2 h3 h4 h5 h6
  refine ⟨hbk', fun r' hqz' hord' hsel' h' => ?_⟩
  obtain ⟨-, -, hsp⟩ := C154_saddle_path_partial hsolve hbk' hqz' hord' hsel' cut r' h'
  have e : C' = r'.C := by
    by_contra hne
    obtain ⟨s0, hs0⟩ := C137_others_explode hsp hC' hne
    exact hs0 (stable_bounded hP' s0)
  subst e
  have hLη : L * η ≤ δ2 := by
    have := (le_div_iff₀ hL).1 (hle.trans (min_le_right _ _))
    linarith
  have hpow' := hpow (L * η) (by positivity) hLη _ hclP
  have hnn : 0 ≤ ns * L * B + cC * (K * L) := by positivity
  refine ⟨fun i j => (hcl i j).trans (mul_le_mul_of_nonneg_right (by nlinarith [mul_pos hK hL]) hη), fun s0 t => ?_⟩
  rw [rulePath_eq, rulePath_eq]
  obtain ⟨b1, b2⟩ := hpow' t s0
  refine ⟨b2.trans ?_, ?_⟩
  · refine mul_le_mul_of_nonneg_right ?_ (norm_nonneg _)
    nlinarith [mul_nonneg hnn hη, mul_nonneg hL.le hη]
  · set u' := (g_s' + g_x' * r'.C) ^ t *ᵥ s0 with hu'
    set u := (g_s + g_x * r.C) ^ t *ᵥ s0 with hu
    have c1 : ‖r'.C *ᵥ u' - r.C *ᵥ u'‖ ≤ ns * (L * η) * (B * ‖s0‖) :=
      (close_mulVec (by positivity) hcl u').trans (mul_le_mul_of_nonneg_left b1 (by positivity))
    have c2 : ‖r.C *ᵥ u' - r.C *ᵥ u‖ ≤ cC * (K * (L * η) * ‖s0‖) := by
      rw [← mulVec_sub]
      exact (hbC _).trans (mul_le_mul_of_nonneg_left b2 hcC.le)
    have c3 := norm_add_le (r'.C *ᵥ u' - r.C *ᵥ u') (r.C *ᵥ u' - r.C *ᵥ u)
    rw [sub_add_sub_cancel] at c3
    have : ns * (L * η) * (B * ‖s0‖) + cC * (K * (L * η) * ‖s0‖) = (ns * L * B + cC * (K * L)) * η * ‖s0‖ := by ring
    have hpos : 0 ≤ (L + K * L) * η * ‖s0‖ := by positivity
    nlinarith

/-- The hypotheses hold for the asset of `SaddlePath.lean`: all models with derivatives within some `δ` of it satisfy the
conditions of Blanchard and Kahn. -/
example : ∃ δ > 0, ∀ g_s' g_x' f_s' f_x' f_S' f_X' : Matrix (Fin 1) (Fin 1) ℝ,
    Close δ (.of fun _ _ => 1 / 2) g_s' → Close δ 0 g_x' → Close δ (.of fun _ _ => -2) f_s' →
    Close δ (.of fun _ _ => 2) f_x' → Close δ 0 f_S' → Close δ (.of fun _ _ => -1) f_X' →
    BlanchardKahn g_s' g_x' f_s' f_x' f_S' f_X' := by
  obtain ⟨r, hr, -⟩ := approxS
  obtain ⟨L, -, δ, hδ, h⟩ := C155_nearby_partial solverR_correct (qz := fun _ _ _ => dS) _ bkS dS_correct ordS selS r hr
  exact ⟨δ, hδ, fun g_s' g_x' f_s' f_x' f_S' f_X' h1 h2 h3 h4 h5 h6 =>
    (h δ hδ.le le_rfl g_s' g_x' f_s' f_x' f_S' f_X' h1 h2 h3 h4 h5 h6).1⟩

end

end Dolo
