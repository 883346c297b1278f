import Mathlib.Analysis.Normed.Group.InfiniteSum
import Mathlib.Analysis.SpecificLimits.Normed
import Mathlib.Analysis.Calculus.ContDiff.RCLike
import Verif.Lemmas.PathMap
import Verif.Props.Tangent

/-!
# C161: nonlinear models that satisfy the conditions of Blanchard and Kahn are determinate
-/

set_option linter.unusedSectionVars false

namespace Dolo

open Matrix Filter Topology Asymptotics

/-! ### Linear recursions with bounded right-hand sides -/

private theorem solve_backward {n : ℕ} (N : Matrix (Fin n) (Fin n) ℝ) (hN : ∀ z, IsEigenvalue N z → ‖z‖ < 1)
    (z : ℕ → Fin n → ℝ) (hz : ∃ b, ∀ t, ‖z t‖ ≤ b) :
    ∃ y : ℕ → Fin n → ℝ, (∃ b, ∀ t, ‖y t‖ ≤ b) ∧ ∀ t, y t = z t + N *ᵥ y (t + 1) := by
  obtain ⟨c, hc, r, hr0, hr1, hpow⟩ := powers_decay N hN
  obtain ⟨b, hb⟩ := hz
  have bound : ∀ t k, ‖N ^ k *ᵥ z (t + k)‖ ≤ c * b * r ^ k := by
    intro t k
    have h1 := (hpow k (z (t + k))).trans (mul_le_mul_of_nonneg_left (hb (t + k)) (by positivity))
    linarith
  have hgeo : Summable fun k : ℕ => c * b * r ^ k := (summable_geometric_of_lt_one hr0.le hr1).mul_left _
  have hsum : ∀ t, Summable fun k => N ^ k *ᵥ z (t + k) := fun t => Summable.of_norm_bounded hgeo (bound t)
  refine ⟨fun t => ∑' k, N ^ k *ᵥ z (t + k), ⟨∑' k : ℕ, c * b * r ^ k, fun t => ?_⟩, fun t => ?_⟩
  · exact tsum_of_norm_bounded hgeo.hasSum (bound t)
  · beta_reduce
    rw [(hsum t).tsum_eq_zero_add]
    have e : N *ᵥ (∑' k, N ^ k *ᵥ z (t + 1 + k)) = ∑' k, N *ᵥ (N ^ k *ᵥ z (t + 1 + k)) := by
      have := (linMap N).map_tsum (hsum (t + 1))
      simpa only [linMap_apply] using this
    rw [e, pow_zero, one_mulVec, add_zero]
    congr 1
    refine tsum_congr fun k => ?_
    rw [mulVec_mulVec, ← pow_succ', show t + (k + 1) = t + 1 + k by omega]

theorem solve_forward {n : ℕ} (P : Matrix (Fin n) (Fin n) ℝ) (hP : ∀ z, IsEigenvalue P z → ‖z‖ < 1)
    (u0 : Fin n → ℝ) (z : ℕ → Fin n → ℝ) (hz : ∃ b, ∀ t, ‖z t‖ ≤ b) :
    ∃ u : ℕ → Fin n → ℝ, (∃ b, ∀ t, ‖u t‖ ≤ b) ∧ u 0 = u0 ∧ ∀ t, u (t + 1) = P *ᵥ u t + z t := by
  obtain ⟨c, hc, r, hr0, hr1, hpow⟩ := powers_decay P hP
  obtain ⟨b, hb⟩ := hz
  have hb0 : 0 ≤ b := (norm_nonneg _).trans (hb 0)
  have hr2 : 0 < 1 - r := by linarith
  let u : ℕ → Fin n → ℝ := fun t => Nat.rec u0 (fun t v => P *ᵥ v + z t) t
  have hu : ∀ t, u (t + 1) = P *ᵥ u t + z t := fun t => rfl
  have key : ∀ t m, ‖P ^ m *ᵥ u t‖ ≤ c * r ^ m * (‖u0‖ + b / (1 - r)) := by
    intro t
    induction t with
    | zero =>
      intro m
      refine (hpow m u0).trans (mul_le_mul_of_nonneg_left ?_ (by positivity))
      have : 0 ≤ b / (1 - r) := by positivity
      linarith
    | succ t ih =>
      intro m
      rw [hu, mulVec_add, mulVec_mulVec, ← pow_succ]
      have h1 := ih (m + 1)
      have h2 := (hpow m (z t)).trans (mul_le_mul_of_nonneg_left (hb t) (by positivity))
      have e : c * r ^ (m + 1) * (‖u0‖ + b / (1 - r)) + c * r ^ m * b
          = c * r ^ m * (‖u0‖ + b / (1 - r)) - c * r ^ m * ((1 - r) * ‖u0‖) := by
        field_simp
        ring
      have h3 : 0 ≤ c * r ^ m * ((1 - r) * ‖u0‖) := by positivity
      refine (norm_add_le _ _).trans ?_
      linarith
  refine ⟨u, ⟨c * r ^ 0 * (‖u0‖ + b / (1 - r)), fun t => ?_⟩, rfl, hu⟩
  have := key t 0
  rwa [pow_zero P, one_mulVec] at this

section linear
variable {ns nx : ℕ}

private theorem bounded_mul {m n : ℕ} (A : Matrix (Fin m) (Fin n) ℝ) {v : ℕ → Fin n → ℝ} (h : ∃ b, ∀ t, ‖v t‖ ≤ b) :
    ∃ b, ∀ t, ‖A *ᵥ v t‖ ≤ b := by
  obtain ⟨c, hc, hA⟩ := mulVec_bound A
  obtain ⟨b, hb⟩ := h
  exact ⟨c * b, fun t => (hA _).trans (mul_le_mul_of_nonneg_left (hb t) hc.le)⟩

private theorem bounded_add {n : ℕ} {v w : ℕ → Fin n → ℝ} (hv : ∃ b, ∀ t, ‖v t‖ ≤ b) (hw : ∃ b, ∀ t, ‖w t‖ ≤ b) :
    ∃ b, ∀ t, ‖v t + w t‖ ≤ b := by
  obtain ⟨b, hb⟩ := hv
  obtain ⟨b', hb'⟩ := hw
  exact ⟨b + b', fun t => (norm_add_le _ _).trans (add_le_add (hb t) (hb' t))⟩

private theorem mulVec_elim (M : Matrix (Fin ns ⊕ Fin nx) (Fin ns ⊕ Fin nx) ℝ) (u : Fin ns → ℝ) (y : Fin nx → ℝ) :
    M *ᵥ Sum.elim u y = Sum.elim (M.toBlocks₁₁ *ᵥ u + M.toBlocks₁₂ *ᵥ y) (M.toBlocks₂₁ *ᵥ u + M.toBlocks₂₂ *ᵥ y) := by
  conv_lhs => rw [← fromBlocks_toBlocks M]
  rw [fromBlocks_mulVec]
  rfl

/-- Every bounded disturbance of the linearised model and every initial state have a bounded path. -/
private theorem linear_surjective {A B : Matrix (Fin ns ⊕ Fin nx) (Fin ns ⊕ Fin nx) ℝ} {d : QZ (Fin ns ⊕ Fin nx) ℝ}
    (hd : d.Correct A B) (hs : Separated d) (hZ : IsUnit d.Z.toBlocks₁₁.det) (e : Fin ns → ℝ)
    (a : ℕ → Fin ns → ℝ) (b : ℕ → Fin nx → ℝ) (ha : ∃ c, ∀ t, ‖a t‖ ≤ c) (hb : ∃ c, ∀ t, ‖b t‖ ≤ c) :
    ∃ (s : ℕ → Fin ns → ℝ) (x : ℕ → Fin nx → ℝ), (∃ c, ∀ t, ‖s t‖ ≤ c) ∧ (∃ c, ∀ t, ‖x t‖ ≤ c) ∧ s 0 = e ∧
      ∀ t, A *ᵥ Sum.elim (s (t + 1)) (x (t + 1)) - B *ᵥ Sum.elim (s t) (x t) = Sum.elim (a t) (b t) := by
  -- the disturbances in the coordinates of the decomposition
  have hd1 : ∃ c, ∀ t, ‖d.Qᵀ.toBlocks₁₁ *ᵥ a t + d.Qᵀ.toBlocks₁₂ *ᵥ b t‖ ≤ c :=
    bounded_add (bounded_mul _ ha) (bounded_mul _ hb)
  have hd2 : ∃ c, ∀ t, ‖d.Qᵀ.toBlocks₂₁ *ᵥ a t + d.Qᵀ.toBlocks₂₂ *ᵥ b t‖ ≤ c :=
    bounded_add (bounded_mul _ ha) (bounded_mul _ hb)
  obtain ⟨y, hyb, hy⟩ := solve_backward _ hs.unstable
    (fun t => (-d.T.toBlocks₂₂⁻¹) *ᵥ (d.Qᵀ.toBlocks₂₁ *ᵥ a t + d.Qᵀ.toBlocks₂₂ *ᵥ b t)) (bounded_mul _ hd2)
  have hyb' : ∃ c, ∀ t, ‖y (t + 1)‖ ≤ c := by
    obtain ⟨c, hc⟩ := hyb
    exact ⟨c, fun t => hc _⟩
  obtain ⟨u, hub, hu0, hu⟩ := solve_forward _ hs.stable (d.Z.toBlocks₁₁⁻¹ *ᵥ (e - d.Z.toBlocks₁₂ *ᵥ y 0))
    (fun t => d.S.toBlocks₁₁⁻¹ *ᵥ (d.T.toBlocks₁₂ *ᵥ y t + (-d.S.toBlocks₁₂) *ᵥ y (t + 1)
      + (d.Qᵀ.toBlocks₁₁ *ᵥ a t + d.Qᵀ.toBlocks₁₂ *ᵥ b t)))
    (bounded_mul _ (bounded_add (bounded_add (bounded_mul _ hyb) (bounded_mul _ hyb')) hd1))
  have hS := hs.split.hS11
  have hT := hs.unitT
  refine ⟨fun t => d.Z.toBlocks₁₁ *ᵥ u t + d.Z.toBlocks₁₂ *ᵥ y t, fun t => d.Z.toBlocks₂₁ *ᵥ u t + d.Z.toBlocks₂₂ *ᵥ y t,
    bounded_add (bounded_mul _ hub) (bounded_mul _ hyb), bounded_add (bounded_mul _ hub) (bounded_mul _ hyb), ?_, fun t => ?_⟩
  · change d.Z.toBlocks₁₁ *ᵥ u 0 + d.Z.toBlocks₁₂ *ᵥ y 0 = e
    rw [hu0, mulVec_mulVec, mul_nonsing_inv _ hZ, one_mulVec, sub_add_cancel]
  · have hQQ : d.Q * d.Qᵀ = 1 := mul_eq_one_comm.1 hd.hQ
    have main : d.S *ᵥ Sum.elim (u (t + 1)) (y (t + 1)) - d.T *ᵥ Sum.elim (u t) (y t) = d.Qᵀ *ᵥ Sum.elim (a t) (b t) := by
      rw [mulVec_elim, mulVec_elim, mulVec_elim, hs.split.hS, hs.split.hT, ← Sum.elim_sub_sub]
      congr 1
      · have e1 : d.S.toBlocks₁₁ *ᵥ u (t + 1) = d.T.toBlocks₁₁ *ᵥ u t + (d.T.toBlocks₁₂ *ᵥ y t + (-d.S.toBlocks₁₂) *ᵥ y (t + 1)
            + (d.Qᵀ.toBlocks₁₁ *ᵥ a t + d.Qᵀ.toBlocks₁₂ *ᵥ b t)) := by
          rw [hu, mulVec_add, mulVec_mulVec, mulVec_mulVec, ← Matrix.mul_assoc, mul_nonsing_inv _ hS, Matrix.one_mul,
            one_mulVec]
        rw [e1, neg_mulVec]
        abel
      · have e1 : d.T.toBlocks₂₂ *ᵥ y t = -(d.Qᵀ.toBlocks₂₁ *ᵥ a t + d.Qᵀ.toBlocks₂₂ *ᵥ b t) + d.S.toBlocks₂₂ *ᵥ y (t + 1) := by
          conv_lhs => rw [hy t]
          rw [mulVec_add, neg_mulVec, mulVec_neg, mulVec_mulVec, mulVec_mulVec, ← Matrix.mul_assoc, mul_nonsing_inv _ hT,
            Matrix.one_mul, one_mulVec]
        rw [e1, zero_mulVec, zero_mulVec, zero_add, zero_add]
        abel
    have eZ : ∀ t, Sum.elim (d.Z.toBlocks₁₁ *ᵥ u t + d.Z.toBlocks₁₂ *ᵥ y t) (d.Z.toBlocks₂₁ *ᵥ u t + d.Z.toBlocks₂₂ *ᵥ y t)
        = d.Z *ᵥ Sum.elim (u t) (y t) := fun t => (mulVec_elim _ _ _).symm
    rw [eZ, eZ, hd.hA, hd.hB, mulVec_mulVec, mulVec_mulVec, Matrix.mul_assoc, Matrix.mul_assoc (d.Q * d.T), hd.hZ, Matrix.mul_one,
      Matrix.mul_one, ← mulVec_mulVec, ← mulVec_mulVec, ← mulVec_sub, main, mulVec_mulVec, hQQ, one_mulVec]

end linear

/-! ### Specification -/

section
variable {nm ns nx : ℕ}

/-- A path of the model without shocks: transitions and arbitrage equations hold at all dates. -/
structure EquilibriumPath (g : (Fin nm → ℝ) → (Fin ns → ℝ) → (Fin nx → ℝ) → (Fin nm → ℝ) → Fin ns → ℝ)
    (f : (Fin nm → ℝ) → (Fin ns → ℝ) → (Fin nx → ℝ) → (Fin nm → ℝ) → (Fin ns → ℝ) → (Fin nx → ℝ) → Fin nx → ℝ)
    (mb : Fin nm → ℝ) (s : ℕ → Fin ns → ℝ) (x : ℕ → Fin nx → ℝ) : Prop where
  transition : ∀ t, s (t + 1) = g mb (s t) (x t) mb
  arbitrage : ∀ t, f mb (s t) (x t) mb (s (t + 1)) (x (t + 1)) = 0

/-- States and controls stay within `δ` of the steady state. -/
def StaysWithin (δ : ℝ) (sb : Fin ns → ℝ) (xb : Fin nx → ℝ) (s : ℕ → Fin ns → ℝ) (x : ℕ → Fin nx → ℝ) : Prop :=
  ∀ t, ‖s t - sb‖ < δ ∧ ‖x t - xb‖ < δ

/-- The functions of the model are continuously differentiable around a steady state, and `dv` holds the derivatives
there. -/
structure SmoothModel (dv : Derivs nm ns nx ℝ) (g : (Fin nm → ℝ) → (Fin ns → ℝ) → (Fin nx → ℝ) → (Fin nm → ℝ) → Fin ns → ℝ)
    (f : (Fin nm → ℝ) → (Fin ns → ℝ) → (Fin nx → ℝ) → (Fin nm → ℝ) → (Fin ns → ℝ) → (Fin nx → ℝ) → Fin nx → ℝ)
    (mb : Fin nm → ℝ) (sb : Fin ns → ℝ) (xb : Fin nx → ℝ) : Prop where
  derivatives : DerivativesAt dv g f mb sb xb
  transition : ContDiffAt ℝ 1 (fun p : (Fin ns → ℝ) × (Fin nx → ℝ) => g mb p.1 p.2 mb) (sb, xb)
  arbitrage : ContDiffAt ℝ 1 (fun p : ((Fin ns → ℝ) × (Fin nx → ℝ)) × ((Fin ns → ℝ) × (Fin nx → ℝ)) =>
    f mb p.1.1 p.1.2 mb p.2.1 p.2.2) ((sb, xb), (sb, xb))
  steady_transition : g mb sb xb mb = sb
  steady_arbitrage : f mb sb xb mb sb xb = 0

/-- `φ` solves the model without shocks near the steady state, is continuous there, and the steady state is stable: states
stay as close to it as one likes if they start close enough. -/
structure LyapunovSolution (g : (Fin nm → ℝ) → (Fin ns → ℝ) → (Fin nx → ℝ) → (Fin nm → ℝ) → Fin ns → ℝ)
    (f : (Fin nm → ℝ) → (Fin ns → ℝ) → (Fin nx → ℝ) → (Fin nm → ℝ) → (Fin ns → ℝ) → (Fin nx → ℝ) → Fin nx → ℝ)
    (mb : Fin nm → ℝ) (sb : Fin ns → ℝ) (xb : Fin nx → ℝ) (φ : (Fin ns → ℝ) → Fin nx → ℝ) : Prop where
  steady : φ sb = xb
  continuous : ContinuousAt φ sb
  solves : ∀ᶠ s in 𝓝 sb, f mb s (φ s) mb (g mb s (φ s) mb) (φ (g mb s (φ s) mb)) = 0
  stable : ∀ δ > 0, ∀ᶠ s in 𝓝 sb, ∀ t : ℕ, ‖(fun s => g mb s (φ s) mb)^[t] s - sb‖ < δ

variable {dv : Derivs nm ns nx ℝ} {g : (Fin nm → ℝ) → (Fin ns → ℝ) → (Fin nx → ℝ) → (Fin nm → ℝ) → Fin ns → ℝ}
  {f : (Fin nm → ℝ) → (Fin ns → ℝ) → (Fin nx → ℝ) → (Fin nm → ℝ) → (Fin ns → ℝ) → (Fin nx → ℝ) → Fin nx → ℝ}
  {mb : Fin nm → ℝ} {sb : Fin ns → ℝ} {xb : Fin nx → ℝ} {dr : (Fin nm → ℝ) → (Fin ns → ℝ) → Fin nx → ℝ}

/-! ### Proof -/

private theorem separated_of_returns (h : PerturbReturns dv mb sb xb dr) :
    ∃ d : QZ (Fin ns ⊕ Fin nx) ℝ, d.Correct (pencilA dv.f_S dv.f_X) (pencilB dv.g_s dv.g_x dv.f_s dv.f_x) ∧ Separated d ∧
      IsUnit d.Z.toBlocks₁₁.det := by
  obtain ⟨solve, qz, cut, t, d, hsolve, hdq, hd, hsplit, hp, hdr⟩ := h.run
  obtain ⟨r, hr, -, hZ1, -⟩ := perturb_rule hsolve qz cut dv mb sb xb t hp dr hdr
  rw [hdq] at hZ1
  refine ⟨d, hd, ?_, hZ1⟩
  rcases hsplit with ⟨ht, hst, hun⟩ | ⟨hbk, ho, hsel⟩
  · obtain ⟨hok, -, -, -, -⟩ := approximate_ok hr
    rw [hdq] at hok
    have hS1 : ∀ i, |d.T (.inl i) (.inl i)| < |d.S (.inl i) (.inl i)| := by
      intro i
      have := hst i
      unfold genEig at this
      split_ifs at this with hT
      · rw [hT, abs_zero, abs_pos]
        exact fun h0 => diag_ne hok _ ⟨h0, hT⟩
      · have h' := WithTop.coe_lt_coe.1 (show ((1 : ℝ) : WithTop ℝ) < _ from this)
        rwa [abs_div, one_lt_div (abs_pos.2 hT)] at h'
    have hS2 : ∀ j, |d.S (.inr j) (.inr j)| < |d.T (.inr j) (.inr j)| := by
      intro j
      have := hun j
      unfold genEig at this
      split_ifs at this with h0
      · exact absurd this (not_lt.2 le_top)
      · have h' := WithTop.coe_lt_coe.1 (show _ < ((1 : ℝ) : WithTop ℝ) from this)
        rwa [abs_div, div_lt_one (abs_pos.2 h0)] at h'
    obtain ⟨hS11, heig1⟩ := triangular_eigenvalues d.T.toBlocks₁₁ d.S.toBlocks₁₁ (fun i j hij => ht.T11 i j hij)
      (fun i j hij => ht.S11 i j hij) hS1
    obtain ⟨hT22, heig⟩ := triangular_eigenvalues d.S.toBlocks₂₂ d.T.toBlocks₂₂ (fun i j hij => ht.S22 i j hij)
      (fun i j hij => ht.T22 i j hij) hS2
    refine ⟨⟨?_, ?_, hS11⟩, hT22, heig1, heig⟩
    · ext i j; simp [toBlocks₂₁, ht.S21]
    · ext i j; simp [toBlocks₂₁, ht.T21]
  · exact separated_of_bk (by norm_num) hbk hd ho hsel

private theorem core (hm : SmoothModel dv g f mb sb xb) (h : PerturbReturns dv mb sb xb dr) :
    ∃ δ > 0, ∃ path : (Fin ns → ℝ) → ℕ → (Fin ns → ℝ) × (Fin nx → ℝ),
      (∃ c > 0, ∀ᶠ s in 𝓝 sb, ∀ t, ‖path s t - (sb, xb)‖ ≤ c * ‖s - sb‖) ∧
      (∀ᶠ s in 𝓝 sb, (path s 0).1 = s ∧ EquilibriumPath g f mb (fun t => (path s t).1) (fun t => (path s t).2) ∧
        StaysWithin δ sb xb (fun t => (path s t).1) (fun t => (path s t).2)) ∧
      (∀ s x, EquilibriumPath g f mb s x → StaysWithin δ sb xb s x → path (s 0) = fun t => (s t, x t)) ∧
      DifferentiableAt ℝ (fun s => path s 0) sb := by
  obtain ⟨C, hC, -, -⟩ := perturb_saddle h
  obtain ⟨d, hd, hsep, hZ⟩ := separated_of_returns h
  let E := Fin ns → ℝ
  let X := Fin nx → ℝ
  have hg1 := hm.transition.hasStrictFDerivAt' hm.derivatives.transition one_ne_zero
  have hf1 := hm.arbitrage.hasStrictFDerivAt' hm.derivatives.arbitrage one_ne_zero
  have hg2 := HasStrictFDerivAt.comp (g := fun p : E × X => g mb p.1 p.2 mb)
    (f := fun p : (E × X) × (E × X) => p.1) ((sb, xb), (sb, xb)) hg1 hasStrictFDerivAt_fst
  have hs2 : HasStrictFDerivAt (fun p : (E × X) × (E × X) => p.2.1)
      ((ContinuousLinearMap.fst ℝ E X).comp (.snd ℝ (E × X) (E × X))) ((sb, xb), (sb, xb)) :=
    hasStrictFDerivAt_snd.fst
  have hh := (hs2.sub hg2).prodMk hf1
  obtain ⟨δ, hδ, path, h1, h2, h3, h4⟩ := bounded_paths (V := E × X) (W := E × X) (E := E) (vb := (sb, xb)) hh
    (by simp [hm.steady_transition, hm.steady_arbitrage]) (ContinuousLinearMap.fst ℝ E X) (by
    rintro v ⟨b, hb⟩ hv0 hv
    have hb1 : BoundedSeq fun t => (v t).1 := ⟨b, fun t i =>
      (norm_le_pi_norm (v t).1 i).trans ((le_max_left _ _).trans (hb t))⟩
    have hb2 : BoundedSeq fun t => (v t).2 := ⟨b, fun t i =>
      (norm_le_pi_norm (v t).2 i).trans ((le_max_right _ _).trans (hb t))⟩
    have hpath : LinearPath dv.g_s dv.g_x dv.f_s dv.f_x dv.f_S dv.f_X (fun t => (v t).1) (fun t => (v t).2) := by
      refine ⟨fun t => ?_, fun t => ?_⟩
      · have := congrArg Prod.fst (hv t)
        exact sub_eq_zero.1 this
      · have : dv.f_s *ᵥ (v t).1 + dv.f_x *ᵥ (v t).2 + (dv.f_S *ᵥ (v (t + 1)).1 + dv.f_X *ᵥ (v (t + 1)).2) = 0 :=
          congrArg Prod.snd (hv t)
        rwa [← add_assoc] at this
    have k := (hC _ _).1 ⟨hpath, hb1, hb2⟩
    have hz : ∀ t, (v t).1 = 0 := by
      intro t
      induction t with
      | zero => exact hv0
      | succ t ih =>
        have := (k t).2
        rw [this, ih, mulVec_zero]
    intro t
    refine Prod.ext (hz t) ?_
    have := (k t).1
    rw [this, hz t, mulVec_zero]
    rfl)
    (by
    rintro e c ⟨b, hb⟩
    obtain ⟨s, x, ⟨b1, hb1⟩, ⟨b2, hb2⟩, h0, hsx⟩ := linear_surjective hd hsep hZ e (fun t => (c t).1) (fun t => -(c t).2)
      ⟨b, fun t => (le_max_left _ _).trans (hb t)⟩ ⟨b, fun t => by rw [norm_neg]; exact (le_max_right _ _).trans (hb t)⟩
    refine ⟨fun t => (s t, x t), ⟨max b1 b2, fun t => max_le_max (hb1 t) (hb2 t)⟩, h0, fun t => ?_⟩
    have := hsx t
    unfold pencilA pencilB at this
    rw [fromBlocks_mulVec, fromBlocks_mulVec, ← Sum.elim_sub_sub] at this
    simp only [Sum.elim_comp_inl, Sum.elim_comp_inr, one_mulVec, zero_mulVec, add_zero] at this
    have k1 := congrArg (fun v => v ∘ Sum.inl) this
    have k2 := congrArg (fun v => v ∘ Sum.inr) this
    simp only [Sum.elim_comp_inl, Sum.elim_comp_inr, neg_mulVec] at k1 k2
    refine Prod.ext ?_ ?_
    · exact k1
    · change dv.f_s *ᵥ s t + dv.f_x *ᵥ x t + (dv.f_S *ᵥ s (t + 1) + dv.f_X *ᵥ x (t + 1)) = (c t).2
      rw [← neg_inj, ← k2]
      abel)
  · refine ⟨δ, hδ, path, h1, ?_, ?_, h4⟩
    · filter_upwards [h2] with s hs
      obtain ⟨a1, a2, a3⟩ := hs
      refine ⟨a1, ⟨fun t => ?_, fun t => ?_⟩, fun t => ?_⟩
      · have := congrArg Prod.fst (a2 t)
        exact sub_eq_zero.1 this
      · exact congrArg Prod.snd (a2 t)
      · exact ⟨lt_of_le_of_lt (le_max_left _ _) (a3 t), lt_of_le_of_lt (le_max_right _ _) (a3 t)⟩
    · intro s x hp hw
      refine h3 (fun t => (s t, x t)) (fun t => max_lt (hw t).1 (hw t).2) fun t => ?_
      refine Prod.ext ?_ ?_
      · exact sub_eq_zero.2 (hp.transition t)
      · exact hp.arbitrage t

private theorem path_next {δ : ℝ} {path : (Fin ns → ℝ) → ℕ → (Fin ns → ℝ) × (Fin nx → ℝ)}
    (h3 : ∀ s x, EquilibriumPath g f mb s x → StaysWithin δ sb xb s x → path (s 0) = fun t => (s t, x t))
    {s : ℕ → Fin ns → ℝ} {x : ℕ → Fin nx → ℝ} (hp : EquilibriumPath g f mb s x) (hw : StaysWithin δ sb xb s x) (t : ℕ) :
    x t = (path (s t) 0).2 ∧ s t = (fun s => g mb s (path s 0).2 mb)^[t] (s 0) := by
  have k : ∀ t, x t = (path (s t) 0).2 := by
    intro t
    have := h3 (fun u => s (u + t)) (fun u => x (u + t))
      ⟨fun u => by have := hp.transition (u + t); rwa [Nat.add_right_comm] at this,
        fun u => by have := hp.arbitrage (u + t); rwa [Nat.add_right_comm] at this⟩ fun u => hw (u + t)
    simp only [zero_add] at this
    rw [this]
    simp
  refine ⟨k t, ?_⟩
  induction t with
  | zero => rfl
  | succ t ih =>
    rw [Function.iterate_succ_apply', ← ih, ← k t]
    exact hp.transition t

/-! ### Properties -/

/-- **C161, determinacy.**  Where `perturb` returns a rule of a smooth model, there is exactly one path of the nonlinear
model without shocks from each initial state near the steady state that stays near it. -/
theorem C161_determinate (hm : SmoothModel dv g f mb sb xb) (h : PerturbReturns dv mb sb xb dr) :
    ∃ δ > 0, ∀ᶠ s0 in 𝓝 sb, ∃! p : (ℕ → Fin ns → ℝ) × (ℕ → Fin nx → ℝ),
      p.1 0 = s0 ∧ EquilibriumPath g f mb p.1 p.2 ∧ StaysWithin δ sb xb p.1 p.2 := by
  obtain ⟨δ, hδ, path, -, h2, h3, -⟩ := core hm h
  refine ⟨δ, hδ, ?_⟩
  filter_upwards [h2] with s0 hs
  refine ⟨(fun t => (path s0 t).1, fun t => (path s0 t).2), hs, ?_⟩
  rintro ⟨s, x⟩ ⟨e0, hp, hw⟩
  simp only at e0 hp hw
  have := h3 s x hp hw
  rw [e0] at this
  rw [this]

/-- **C161, existence of a solution.**  There is a stable solution, differentiable at the steady state, to which the rule
of `perturb` is tangent.  Paths of the model that stay near the steady state follow this solution at all dates, and
simulations under it are such paths, at distances in proportion to the initial one. -/
theorem C161_solution (hm : SmoothModel dv g f mb sb xb) (h : PerturbReturns dv mb sb xb dr) :
    ∃ φ : (Fin ns → ℝ) → Fin nx → ℝ, StableSolution g f mb sb xb φ ∧ LyapunovSolution g f mb sb xb φ ∧
      DifferentiableAt ℝ φ sb ∧ (fun s => φ s - dr mb s) =o[𝓝 sb] (fun s => s - sb) ∧
      ∃ δ > 0, (∀ s x, EquilibriumPath g f mb s x → StaysWithin δ sb xb s x →
          ∀ t, x t = φ (s t) ∧ s t = (fun s => g mb s (φ s) mb)^[t] (s 0)) ∧
        ∀ᶠ s0 in 𝓝 sb, EquilibriumPath g f mb (fun t => (fun s => g mb s (φ s) mb)^[t] s0)
            (fun t => φ ((fun s => g mb s (φ s) mb)^[t] s0)) ∧
          StaysWithin δ sb xb (fun t => (fun s => g mb s (φ s) mb)^[t] s0)
            fun t => φ ((fun s => g mb s (φ s) mb)^[t] s0) := by
  obtain ⟨δ, hδ, path, ⟨c, hc, h1⟩, h2, h3, h4⟩ := core hm h
  have hnext : ∀ᶠ s0 in 𝓝 sb, ∀ t, (path s0 t).1 = (fun s => g mb s (path s 0).2 mb)^[t] s0 ∧
      (path s0 t).2 = (path (path s0 t).1 0).2 := by
    filter_upwards [h2] with s0 hs t
    have := path_next h3 hs.2.1 hs.2.2 t
    refine ⟨?_, this.1⟩
    have e := this.2
    simp only [hs.1] at e
    exact e
  have hsteady : (path sb 0).2 = xb := by
    have := h3 (fun _ => sb) (fun _ => xb) ⟨fun _ => hm.steady_transition.symm, fun _ => hm.steady_arbitrage⟩
      fun t => by simp [hδ]
    rw [this]
  have hdiff : DifferentiableAt ℝ (fun s => (path s 0).2) sb := h4.snd
  have heq : ∀ᶠ s0 in 𝓝 sb, EquilibriumPath g f mb (fun t => (fun s => g mb s (path s 0).2 mb)^[t] s0)
      (fun t => (path ((fun s => g mb s (path s 0).2 mb)^[t] s0) 0).2) ∧
      StaysWithin δ sb xb (fun t => (fun s => g mb s (path s 0).2 mb)^[t] s0)
        fun t => (path ((fun s => g mb s (path s 0).2 mb)^[t] s0) 0).2 := by
    filter_upwards [h2, hnext] with s0 hs hn
    have e1 : (fun t => (fun s => g mb s (path s 0).2 mb)^[t] s0) = fun t => (path s0 t).1 :=
      funext fun t => ((hn t).1).symm
    have e2 : (fun t => (path ((fun s => g mb s (path s 0).2 mb)^[t] s0) 0).2) = fun t => (path s0 t).2 :=
      funext fun t => by rw [← (hn t).1]; exact ((hn t).2).symm
    rw [e1, e2]
    exact hs.2
  have hsolves : ∀ᶠ s in 𝓝 sb, f mb s (path s 0).2 mb (g mb s (path s 0).2 mb) (path (g mb s (path s 0).2 mb) 0).2 = 0 := by
    filter_upwards [heq] with s hs
    exact hs.1.arbitrage 0
  have hbound : ∀ᶠ s in 𝓝 sb, ∀ t : ℕ, ‖(fun s => g mb s (path s 0).2 mb)^[t] s - sb‖ ≤ c * ‖s - sb‖ := by
    filter_upwards [h1, hnext] with s hs hn t
    rw [← (hn t).1]
    exact (le_max_left _ _).trans (hs t)
  have hst : StableSolution g f mb sb xb fun s => (path s 0).2 :=
    ⟨hsteady, hsolves, c, fun t => hbound.mono fun s hs => hs t⟩
  refine ⟨fun s => (path s 0).2, hst, ⟨hsteady, hdiff.continuousAt, hsolves, fun ε hε => ?_⟩, hdiff,
    C160_tangent hm.derivatives hm.steady_transition h hst hdiff, δ, hδ, fun s x hp hw t => path_next h3 hp hw t, heq⟩
  have hnear : ∀ᶠ s in 𝓝 sb, ‖s - sb‖ < ε / c := by
    filter_upwards [Metric.ball_mem_nhds sb (div_pos hε hc)] with s hs
    rwa [← dist_eq_norm]
  filter_upwards [hbound, hnear] with s hs hn t
  refine (hs t).trans_lt ?_
  rwa [lt_div_iff₀ hc, mul_comm] at hn

/-- **C161, uniqueness of the solution.**  Any two solutions that are continuous at the steady state and under which it is
stable are the same near it. -/
theorem C161_unique (hm : SmoothModel dv g f mb sb xb) (h : PerturbReturns dv mb sb xb dr)
    {φ φ' : (Fin ns → ℝ) → Fin nx → ℝ} (hφ : LyapunovSolution g f mb sb xb φ) (hφ' : LyapunovSolution g f mb sb xb φ') :
    φ =ᶠ[𝓝 sb] φ' := by
  obtain ⟨ψ, -, -, -, -, δ, hδ, hψ, -⟩ := C161_solution hm h
  have key : ∀ φ, LyapunovSolution g f mb sb xb φ → φ =ᶠ[𝓝 sb] ψ := by
    intro φ hφ
    have hc : ∀ᶠ s in 𝓝 sb, ‖φ s - xb‖ < δ := by
      have := hφ.continuous.eventually (Metric.ball_mem_nhds (φ sb) hδ)
      filter_upwards [this] with s hs
      rw [hφ.steady] at hs
      rwa [← dist_eq_norm]
    obtain ⟨r, hr, hball⟩ := Metric.eventually_nhds_iff_ball.1 (hφ.solves.and hc)
    filter_upwards [hφ.stable (min r δ) (lt_min hr hδ)] with s hs
    have hin : ∀ t : ℕ, (fun s => g mb s (φ s) mb)^[t] s ∈ Metric.ball sb r := fun t => by
      rw [mem_ball_iff_norm]
      exact (hs t).trans_le (min_le_left _ _)
    have := hψ (fun t => (fun s => g mb s (φ s) mb)^[t] s) (fun t => φ ((fun s => g mb s (φ s) mb)^[t] s))
      ⟨fun t => Function.iterate_succ_apply' _ _ _, fun t => by
        have := (hball _ (hin t)).1
        simp only [Function.iterate_succ_apply']
        exact this⟩
      fun t => ⟨(hs t).trans_le (min_le_right _ _), (hball _ (hin t)).2⟩
    exact (this 0).1
  exact (key φ hφ).trans (key φ' hφ').symm

/-- **C161, simulations.**  From states near the steady state, simulations of the model under the rule of `perturb` without
shocks differ, at all dates and whatever their length, from the one path of the nonlinear model that stays near the steady
state by at most `ε r^t` times the initial distance, with `r < 1`. -/
theorem C161_simulations (hm : SmoothModel dv g f mb sb xb) (h : PerturbReturns dv mb sb xb dr) :
    ∃ δ > 0, ∃ r, 0 < r ∧ r < 1 ∧ ∀ ε > 0, ∀ᶠ s0 in 𝓝 sb, ∃ s x, s 0 = s0 ∧ EquilibriumPath g f mb s x ∧
      StaysWithin δ sb xb s x ∧ (∀ s' x', s' 0 = s0 → EquilibriumPath g f mb s' x' → StaysWithin δ sb xb s' x' →
        s' = s ∧ x' = x) ∧
      ∀ T t sim p, simulateDriven g dr s0 T (List.replicate T mb) = .ok sim → sim[t]? = some p →
        ‖p.1 - s t‖ ≤ ε * r ^ t * ‖s0 - sb‖ ∧ ‖p.2 - x t‖ ≤ ε * r ^ t * ‖s0 - sb‖ := by
  obtain ⟨φ, hst, -, hdiff, -, δ, hδ, hfollow, hsim⟩ := C161_solution hm h
  obtain ⟨r, hr0, hr1, hall⟩ := C160_all_dates hm.derivatives hm.steady_transition h hst hdiff
  refine ⟨δ, hδ, r, hr0, hr1, fun ε hε => ?_⟩
  filter_upwards [hsim, hall ε hε] with s0 h1 h2
  refine ⟨_, _, rfl, h1.1, h1.2, ?_, ?_⟩
  · intro s' x' e0 hp hw
    have k := hfollow s' x' hp hw
    have e : s' = fun t => (fun s => g mb s (φ s) mb)^[t] s0 := funext fun t => by rw [(k t).2, e0]
    exact ⟨e, funext fun t => by rw [(k t).1, e]⟩
  · intro T t sim p hs hp
    have hT : T ≠ 0 := by rintro rfl; simp [simulateDriven] at hs
    have hok : ∀ dr' : (Fin nm → ℝ) → (Fin ns → ℝ) → Fin nx → ℝ, simulateDriven g dr' s0 T (List.replicate T mb)
        = .ok (simLoop g dr' mb s0 (List.replicate T mb)) := by
      intro dr'
      obtain ⟨n, rfl⟩ := Nat.exists_eq_succ_of_ne_zero hT
      simp [simulateDriven, List.replicate_succ, firstRows]
    have hlen : ∀ (dr' : (Fin nm → ℝ) → (Fin ns → ℝ) → Fin nx → ℝ) (l : List (Fin nm → ℝ)) m s,
        (simLoop g dr' m s l).length = l.length := by
      intro dr' l
      induction l with
      | nil => intro m s; rfl
      | cons a l ih => intro m s; simp [simLoop, ih]
    have ht : t < T := by
      rw [hok] at hs
      cases hs
      have := (List.getElem?_eq_some_iff.1 hp).1
      simpa [hlen] using this
    obtain ⟨p', hp'⟩ : ∃ p', (simLoop g (fun _ => φ) mb s0 (List.replicate T mb))[t]? = some p' :=
      ⟨_, List.getElem?_eq_getElem (by simpa [hlen] using ht)⟩
    obtain ⟨q1, q2⟩ := simLoop_iterate g (fun _ => φ) mb T t s0 p' hp'
    have := h2 T t sim _ p p' hs (hok _) hp hp'
    rw [q2, q1] at this
    exact this

end

/-- The asset of C160, `s' = s / 2` and `2 x = 2 s - s ^ 2 + x'`. -/
example :
    let g : (Fin 1 → ℝ) → (Fin 1 → ℝ) → (Fin 1 → ℝ) → (Fin 1 → ℝ) → Fin 1 → ℝ := fun _ s _ _ => (1 / 2 : ℝ) • s
    let f : (Fin 1 → ℝ) → (Fin 1 → ℝ) → (Fin 1 → ℝ) → (Fin 1 → ℝ) → (Fin 1 → ℝ) → (Fin 1 → ℝ) → Fin 1 → ℝ :=
      fun _ s x _ _ X => (-2 : ℝ) • s + (2 : ℝ) • x - X + s * s
    SmoothModel dvH g f 0 0 0 ∧ PerturbReturns dvH 0 0 0 fun _ s => (4 / 3 : ℝ) • s := by
  intro g f
  obtain ⟨h1, -, -, h2⟩ := asset_case
  refine ⟨⟨h1, ?_, ?_, ?_, ?_⟩, h2⟩
  · exact (contDiff_fst.const_smul (1 / 2 : ℝ)).contDiffAt
  · refine ContDiff.contDiffAt ?_
    have k1 : ContDiff ℝ 1 fun p : ((Fin 1 → ℝ) × (Fin 1 → ℝ)) × ((Fin 1 → ℝ) × (Fin 1 → ℝ)) => p.1.1 := contDiff_fst.fst
    exact (((k1.const_smul (-2 : ℝ)).add (contDiff_fst.snd.const_smul (2 : ℝ))).sub contDiff_snd.snd).add (k1.mul k1)
  · simp [g]
  · simp [f]

/-- A solution of the asset model that is continuous and stable. -/
example : LyapunovSolution (nm := 1) (ns := 1) (nx := 1) (fun _ s _ _ => (1 / 2 : ℝ) • s)
    (fun _ s x _ _ X => (-2 : ℝ) • s + (2 : ℝ) • x - X + s * s) 0 0 0
    (fun s => (4 / 3 : ℝ) • s - (4 / 7 : ℝ) • (s * s)) := by
  have e : ∀ (t : ℕ) (s : Fin 1 → ℝ), (fun s : Fin 1 → ℝ => (1 / 2 : ℝ) • s)^[t] s = ((1 / 2 : ℝ) ^ t) • s := by
    intro t s
    induction t with
    | zero => simp
    | succ t ih => rw [Function.iterate_succ_apply', ih, smul_smul, pow_succ, mul_comm]
  refine ⟨by simp, by fun_prop, Eventually.of_forall fun s => ?_, fun δ hδ => ?_⟩
  · funext i
    simp
    ring
  · filter_upwards [Metric.ball_mem_nhds 0 hδ] with s hs t
    rw [e, sub_zero, norm_smul, norm_pow, Real.norm_of_nonneg (by norm_num)]
    rw [mem_ball_iff_norm, sub_zero] at hs
    exact (mul_le_of_le_one_left (norm_nonneg _) (pow_le_one₀ (by norm_num) (by norm_num))).trans_lt hs

end Dolo
