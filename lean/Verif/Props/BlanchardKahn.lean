import Verif.Lemmas.Qz
import Verif.Props.Horizon

/-!
# C154: models that satisfy the conditions of Blanchard and Kahn

Here the conditions are those of the model, the roots of `det(z A - B)` counted with their multiplicity, and not those of
the numbers that `perturb` reports.
-/

set_option linter.unusedSectionVars false

namespace Dolo

open Matrix Polynomial

/-! ### Specification -/

/-- The conditions of Blanchard and Kahn: of the roots of `det(z A - B)`, where `A v_{t+1} = B v_t` is the linearised
model, exactly as many as there are states are inside the unit circle (with multiplicity), and none is on it. -/
structure BlanchardKahn {ns nx : ℕ} (g_s : Matrix (Fin ns) (Fin ns) ℝ) (g_x : Matrix (Fin ns) (Fin nx) ℝ)
    (f_s : Matrix (Fin nx) (Fin ns) ℝ) (f_x : Matrix (Fin nx) (Fin nx) ℝ)
    (f_S : Matrix (Fin nx) (Fin ns) ℝ) (f_X : Matrix (Fin nx) (Fin nx) ℝ) : Prop where
  regular : pencilPoly (pencilA f_S f_X) (pencilB g_s g_x f_s f_x) ≠ 0
  count : (((pencilPoly (pencilA f_S f_X) (pencilB g_s g_x f_s f_x)).roots).filter (fun z => ‖z‖ < 1)).card = ns
  off : ∀ z : ℂ, (z • cMat (pencilA f_S f_X) - cMat (pencilB g_s g_x f_s f_x)).det = 0 → ‖z‖ ≠ 1

/-- `ordqz` sorts: for some `k` the first `k` rows and columns are separated from the others by a block of zeros, all
eigenvalues `(α, β)` of the first part are moved to the top-left by `select`, none of the others. -/
def QZ.Ordered {ns nx : ℕ} (crit : ℝ) (d : QZ (Fin ns ⊕ Fin nx) ℝ) : Prop :=
  ∃ k : ℕ, (∀ i j, k ≤ place i → place j < k → d.S i j = 0 ∧ d.T i j = 0) ∧
    (∀ (α : ℂ) (β : ℝ), ¬ (α = 0 ∧ β = 0) →
      ((β : ℂ) • cMat (d.S.toSquareBlockProp fun i => place i < k) -
        α • cMat (d.T.toSquareBlockProp fun i => place i < k)).det = 0 → qzMoved crit α β) ∧
    (∀ (α : ℂ) (β : ℝ), ¬ (α = 0 ∧ β = 0) →
      ((β : ℂ) • cMat (d.S.toSquareBlockProp fun i => ¬ place i < k) -
        α • cMat (d.T.toSquareBlockProp fun i => ¬ place i < k)).det = 0 → ¬ qzMoved crit α β)

/-- `select` tells the stable eigenvalues of the model from the others: an eigenvalue `l` of `A v = l B v` is moved to the
top-left exactly if it is larger than one in modulus. -/
def SelectsStable {I : Type} [Fintype I] [DecidableEq I] (crit : ℝ) (A B : Matrix I I ℝ) : Prop :=
  ∀ l : ℂ, (cMat A - l • cMat B).det = 0 → (1 < ‖l‖ ↔ qzMoved crit l 1)

/-! ### Separation -/

/-- What the proofs need of a decomposition. -/
structure Separated {ns nx : ℕ} (d : QZ (Fin ns ⊕ Fin nx) ℝ) : Prop where
  split : d.Split
  unitT : IsUnit d.T.toBlocks₂₂.det
  stable : ∀ z, IsEigenvalue (d.S.toBlocks₁₁⁻¹ * d.T.toBlocks₁₁) z → ‖z‖ < 1
  unstable : ∀ z, IsEigenvalue (d.T.toBlocks₂₂⁻¹ * d.S.toBlocks₂₂) z → ‖z‖ < 1

theorem moved_real (crit : ℝ) (l : ℝ) : qzMoved crit (l : ℂ) 1 ↔ crit < l ^ 2 := by
  unfold qzMoved qzSelect npComplexGt
  have e : ((l : ℂ) ^ 2) = ((l ^ 2 : ℝ) : ℂ) := by push_cast; rfl
  have e2 : star (l : ℂ) = (l : ℂ) := Complex.conj_ofReal l
  rw [e2, e]
  simp only [Complex.ofReal_re, Complex.ofReal_im, lt_irrefl, and_false, or_false, or_self, one_pow, mul_one]

private theorem not_moved_zero {crit : ℝ} (hc : 0 < crit) : ¬ qzMoved crit 0 1 := by
  have := moved_real crit 0
  rw [Complex.ofReal_zero] at this
  rw [this]
  simpa using hc.le

private theorem moved_infinite (crit : ℝ) : qzMoved crit 1 0 := by
  left
  left
  simp

private theorem scaled {I : Type} [Fintype I] [DecidableEq I] (A B : Matrix I I ℂ) {z : ℂ} (hz : z ≠ 0) :
    (z • A - B).det = 0 ↔ (A - z⁻¹ • B).det = 0 := by
  have e : z • A - B = z • (A - z⁻¹ • B) := by
    rw [smul_sub, smul_smul, mul_inv_cancel₀ hz, one_smul]
  rw [e, det_smul, mul_eq_zero]
  simp [hz]

theorem generalised {n : ℕ} {S T : Matrix (Fin n) (Fin n) ℝ} (hS : IsUnit S.det) {z : ℂ}
    (hz : IsEigenvalue (S⁻¹ * T) z) : (z • cMat S - cMat T).det = 0 := by
  obtain ⟨v, hv, e⟩ := hz
  refine Matrix.exists_mulVec_eq_zero_iff.1 ⟨v, hv, ?_⟩
  have hm : ∀ M N : Matrix (Fin n) (Fin n) ℝ, (M * N).map Complex.ofReal = cMat M * cMat N := fun M N =>
    map_mul (Complex.ofRealHom.mapMatrix (m := Fin n)) M N
  have h1 : cMat S * cMat S⁻¹ = 1 := by
    rw [← hm, mul_nonsing_inv _ hS]
    exact map_one (Complex.ofRealHom.mapMatrix (m := Fin n))
  have := congrArg (fun w => cMat S *ᵥ w) e
  simp only [hm, mulVec_mulVec, ← Matrix.mul_assoc, h1, Matrix.one_mul, mulVec_smul] at this
  rw [sub_mulVec, this, smul_mulVec, sub_self]

private theorem places {ns nx k : ℕ} (h : Fintype.card {i : Fin ns ⊕ Fin nx // place i < k} = ns) (i : Fin ns ⊕ Fin nx) :
    place i < k ↔ i.isLeft := by
  have hL : (Finset.univ.filter fun i : Fin ns ⊕ Fin nx => i.isLeft = true).card = ns := by
    have : (Finset.univ.filter fun i : Fin ns ⊕ Fin nx => i.isLeft = true)
        = Finset.univ.map ⟨Sum.inl, Sum.inl_injective⟩ := by
      ext i
      rcases i with i | i <;> simp
    rw [this, Finset.card_map, Finset.card_univ, Fintype.card_fin]
  have hP : (Finset.univ.filter fun i : Fin ns ⊕ Fin nx => place i < k).card = ns :=
    (Fintype.card_subtype _).symm.trans h
  have heq : (Finset.univ.filter fun i : Fin ns ⊕ Fin nx => place i < k)
      = Finset.univ.filter fun i : Fin ns ⊕ Fin nx => i.isLeft = true := by
    rcases le_total k ns with hk | hk
    · refine Finset.eq_of_subset_of_card_le (fun i hi => ?_) (by rw [hL, hP])
      have hi := (Finset.mem_filter.1 hi).2
      refine Finset.mem_filter.2 ⟨Finset.mem_univ _, ?_⟩
      rcases i with i | i
      · rfl
      · simp only [place] at hi; omega
    · refine (Finset.eq_of_subset_of_card_le (fun i hi => ?_) (by rw [hL, hP])).symm
      have hi := (Finset.mem_filter.1 hi).2
      refine Finset.mem_filter.2 ⟨Finset.mem_univ _, ?_⟩
      rcases i with i | i
      · simp only [place]; have := i.2; omega
      · simp at hi
  have := congrArg (fun s => i ∈ s) heq
  simpa using this

private noncomputable def eqL {ns nx : ℕ} {p : Fin ns ⊕ Fin nx → Prop} (hp : ∀ i, p i ↔ i.isLeft) :
    Fin ns ≃ {i // p i} :=
  Equiv.ofBijective (fun a => ⟨.inl a, (hp _).2 rfl⟩) ⟨fun a b h => by simpa using h, fun ⟨i, hi⟩ => by
    rcases i with i | i
    · exact ⟨i, rfl⟩
    · have := (hp _).1 hi; simp at this⟩

private noncomputable def eqR {ns nx : ℕ} {p : Fin ns ⊕ Fin nx → Prop} (hp : ∀ i, p i ↔ i.isLeft) :
    Fin nx ≃ {i // ¬ p i} :=
  Equiv.ofBijective (fun a => ⟨.inr a, fun h => by have := (hp _).1 h; simp at this⟩)
    ⟨fun a b h => by simpa using h, fun ⟨i, hi⟩ => by
      rcases i with i | i
      · exact absurd ((hp _).2 rfl) hi
      · exact ⟨i, rfl⟩⟩

section
variable {ns nx : ℕ} {g_s : Matrix (Fin ns) (Fin ns) ℝ} {g_x : Matrix (Fin ns) (Fin nx) ℝ}
  {f_s : Matrix (Fin nx) (Fin ns) ℝ} {f_x : Matrix (Fin nx) (Fin nx) ℝ}
  {f_S : Matrix (Fin nx) (Fin ns) ℝ} {f_X : Matrix (Fin nx) (Fin nx) ℝ}

theorem separated_of_bk {d : QZ (Fin ns ⊕ Fin nx) ℝ} {crit : ℝ} (hcrit : 0 < crit)
    (hbk : BlanchardKahn g_s g_x f_s f_x f_S f_X)
    (hd : d.Correct (pencilA f_S f_X) (pencilB g_s g_x f_s f_x)) (ho : d.Ordered crit)
    (hsel : SelectsStable crit (pencilA f_S f_X) (pencilB g_s g_x f_s f_x)) : Separated d := by
  obtain ⟨k, h0, h1, h2⟩ := ho
  obtain ⟨reg, count, off⟩ := hbk
  set A := pencilA f_S f_X with hA
  set B := pencilB g_s g_x f_s f_x with hB
  obtain ⟨c, hc, hpol⟩ := pencilPoly_similar d.S d.T d.Q d.Z hd.hQ hd.hZ
  rw [← hd.hA, ← hd.hB, pencilPoly_blocks d.S d.T (fun i => place i < k)
    (fun i hi j hj => (h0 i j (not_lt.1 hi) hj).1) (fun i hi j hj => (h0 i j (not_lt.1 hi) hj).2)] at hpol
  set S1 := d.S.toSquareBlockProp fun i => place i < k with hS1
  set T1 := d.T.toSquareBlockProp fun i => place i < k with hT1
  set S2 := d.S.toSquareBlockProp fun i => ¬ place i < k with hS2
  set T2 := d.T.toSquareBlockProp fun i => ¬ place i < k with hT2
  have cdet : ∀ {J : Type} [Fintype J] [DecidableEq J] (M : Matrix J J ℝ), (cMat M).det = ((M.det : ℝ) : ℂ) :=
    fun M => by rw [← Complex.ofRealHom_eq_coe, RingHom.map_det]; rfl
  have dS1 : S1.det ≠ 0 := by
    intro h
    refine not_moved_zero hcrit (h1 0 1 (by simp) ?_)
    rw [Complex.ofReal_one, one_smul, zero_smul, sub_zero, cdet, h, Complex.ofReal_zero]
  have dT2 : T2.det ≠ 0 := by
    intro h
    refine h2 1 0 (by simp) ?_ (moved_infinite crit)
    rw [Complex.ofReal_zero, one_smul, zero_smul, zero_sub, det_neg, cdet, h, Complex.ofReal_zero, mul_zero]
  obtain ⟨P1, card1⟩ := pencilPoly_degree dS1 T1
  have hne : pencilPoly S1 T1 * pencilPoly S2 T2 ≠ 0 := by
    intro h; exact reg (by rw [hpol, h, mul_zero])
  have hroots : (pencilPoly A B).roots = (pencilPoly S1 T1).roots + (pencilPoly S2 T2).roots := by
    rw [hpol, roots_C_mul _ hc, roots_mul hne]
  have root_iff : ∀ z : ℂ, (z • cMat A - cMat B).det = 0 ↔ (z • cMat S1 - cMat T1).det = 0 ∨ (z • cMat S2 - cMat T2).det = 0 := by
    intro z
    rw [← pencilPoly_eval, ← pencilPoly_eval, ← pencilPoly_eval, hpol, eval_mul, eval_C, eval_mul]
    simp [hc]
  have in1 : ∀ z : ℂ, (z • cMat S1 - cMat T1).det = 0 → ‖z‖ < 1 := by
    intro z hz
    by_cases hz0 : z = 0
    · rw [hz0, norm_zero]; exact one_pos
    have hl := (scaled _ _ hz0).1 ((root_iff z).2 (.inl hz))
    have hm := h1 z⁻¹ 1 (by simp) (by rw [Complex.ofReal_one, one_smul]; exact (scaled _ _ hz0).1 hz)
    have := (hsel _ hl).2 hm
    rw [norm_inv] at this
    exact (one_lt_inv₀ (norm_pos_iff.2 hz0)).1 this
  have in2 : ∀ z : ℂ, (z • cMat S2 - cMat T2).det = 0 → 1 < ‖z‖ := by
    intro z hz
    by_cases hz0 : z = 0
    · exfalso
      rw [hz0, zero_smul, zero_sub, det_neg, cdet] at hz
      simp only [mul_eq_zero, pow_eq_zero_iff', neg_eq_zero, one_ne_zero, false_and, false_or] at hz
      exact dT2 (by exact_mod_cast hz)
    have hr := (root_iff z).2 (.inr hz)
    have hl := (scaled _ _ hz0).1 hr
    have hm := h2 z⁻¹ 1 (by simp) (by rw [Complex.ofReal_one, one_smul]; exact (scaled _ _ hz0).1 hz)
    have hn : ¬ 1 < ‖z⁻¹‖ := fun h => hm ((hsel _ hl).1 h)
    rw [norm_inv, one_lt_inv₀ (norm_pos_iff.2 hz0)] at hn
    exact lt_of_le_of_ne (not_lt.1 hn) (off z hr).symm
  have mem1 : ∀ z ∈ (pencilPoly S1 T1).roots, ‖z‖ < 1 := fun z hz =>
    in1 z (by rw [← pencilPoly_eval]; exact (mem_roots'.1 hz).2)
  have mem2 : ∀ z ∈ (pencilPoly S2 T2).roots, ¬ ‖z‖ < 1 := fun z hz =>
    not_lt.2 (in2 z (by rw [← pencilPoly_eval]; exact (mem_roots'.1 hz).2)).le
  have hcard : Fintype.card {i : Fin ns ⊕ Fin nx // place i < k} = ns := by
    rw [hroots, Multiset.filter_add, Multiset.filter_eq_self.2 mem1, Multiset.filter_eq_nil.2 mem2, add_zero, card1] at count
    exact count
  have hp := places hcard
  have e1 : ∀ M : Matrix (Fin ns ⊕ Fin nx) (Fin ns ⊕ Fin nx) ℝ,
      M.toBlocks₁₁ = (M.toSquareBlockProp fun i => place i < k).submatrix (eqL hp) (eqL hp) := fun M => rfl
  have e2 : ∀ M : Matrix (Fin ns ⊕ Fin nx) (Fin ns ⊕ Fin nx) ℝ,
      M.toBlocks₂₂ = (M.toSquareBlockProp fun i => ¬ place i < k).submatrix (eqR hp) (eqR hp) := fun M => rfl
  have hS11 : IsUnit d.S.toBlocks₁₁.det := by
    rw [e1, det_submatrix_equiv_self]
    exact isUnit_iff_ne_zero.2 dS1
  have hT22 : IsUnit d.T.toBlocks₂₂.det := by
    rw [e2, det_submatrix_equiv_self]
    exact isUnit_iff_ne_zero.2 dT2
  have zero : ∀ (i : Fin nx) (j : Fin ns), d.S (.inr i) (.inl j) = 0 ∧ d.T (.inr i) (.inl j) = 0 := by
    intro i j
    refine h0 _ _ (not_lt.1 fun h => ?_) ((hp _).2 rfl)
    have := (hp _).1 h
    simp at this
  refine ⟨⟨?_, ?_, hS11⟩, hT22, fun z hz => ?_, fun z hz => ?_⟩
  · ext i j; exact (zero i j).1
  · ext i j; exact (zero i j).2
  · have := generalised hS11 hz
    refine in1 z ?_
    have e : z • cMat d.S.toBlocks₁₁ - cMat d.T.toBlocks₁₁ = (z • cMat S1 - cMat T1).submatrix (eqL hp) (eqL hp) := rfl
    rw [e, det_submatrix_equiv_self] at this
    exact this
  · by_cases hz0 : z = 0
    · rw [hz0, norm_zero]; exact one_pos
    have := generalised hT22 hz
    have e : z • cMat d.T.toBlocks₂₂ - cMat d.S.toBlocks₂₂ = (z • cMat T2 - cMat S2).submatrix (eqR hp) (eqR hp) := rfl
    rw [e, det_submatrix_equiv_self, scaled _ _ hz0] at this
    have h3 := in2 z⁻¹ (by rw [← neg_sub, det_neg, this, mul_zero])
    rw [norm_inv] at h3
    exact (one_lt_inv₀ (norm_pos_iff.2 hz0)).1 h3

/-! ### The theorems -/

theorem powers_tendsto {n : ℕ} (A : Matrix (Fin n) (Fin n) ℝ) (hA : ∀ z, IsEigenvalue A z → ‖z‖ < 1) :
    Filter.Tendsto (fun k => A ^ k) Filter.atTop (nhds 0) := by
  obtain ⟨c, hc, r, hr0, hr1, h⟩ := powers_decay A hA
  refine tendsto_pi_nhds.2 fun i => tendsto_pi_nhds.2 fun j => ?_
  change Filter.Tendsto (fun k => (A ^ k) i j) Filter.atTop (nhds (0 : ℝ))
  refine tendsto_zero_iff_norm_tendsto_zero.2 ?_
  have hlim : Filter.Tendsto (fun k => c * r ^ k * ‖(Pi.single j 1 : Fin n → ℝ)‖) Filter.atTop (nhds 0) := by
    have := ((tendsto_pow_atTop_nhds_zero_of_lt_one hr0.le hr1).const_mul c).mul_const ‖(Pi.single j 1 : Fin n → ℝ)‖
    simpa using this
  refine squeeze_zero (fun k => norm_nonneg _) (fun k => ?_) hlim
  have e : (A ^ k) i j = (A ^ k *ᵥ Pi.single j 1) i := by simp
  rw [e]
  exact (norm_le_pi_norm _ i).trans (h k _)

private theorem transition_stable {d : QZ (Fin ns ⊕ Fin nx) ℝ} {C : Matrix (Fin nx) (Fin ns) ℝ}
    (hd : d.Correct (pencilA f_S f_X) (pencilB g_s g_x f_s f_x)) (hs : Separated d) (hZ : IsUnit d.Z.toBlocks₁₁.det)
    (hC : C * d.Z.toBlocks₁₁ = d.Z.toBlocks₂₁) : ∀ z, IsEigenvalue (g_s + g_x * C) z → ‖z‖ < 1 := by
  rintro z ⟨v, hv, e⟩
  have hP := transition_eq hd hs.split hC
  have hm : ∀ M N : Matrix (Fin ns) (Fin ns) ℝ, (M * N).map Complex.ofReal = cMat M * cMat N := fun M N =>
    map_mul (Complex.ofRealHom.mapMatrix (m := Fin ns)) M N
  have hone : cMat (1 : Matrix (Fin ns) (Fin ns) ℝ) = 1 := map_one (Complex.ofRealHom.mapMatrix (m := Fin ns))
  refine hs.stable z ⟨cMat d.Z.toBlocks₁₁⁻¹ *ᵥ v, fun h0 => hv ?_, ?_⟩
  · have : cMat d.Z.toBlocks₁₁ *ᵥ (cMat d.Z.toBlocks₁₁⁻¹ *ᵥ v) = v := by
      rw [mulVec_mulVec, ← hm, mul_nonsing_inv _ hZ]; change cMat 1 *ᵥ v = v; rw [hone, one_mulVec]
    rw [← this, h0, mulVec_zero]
  · have e1 : d.S.toBlocks₁₁⁻¹ * d.T.toBlocks₁₁ * d.Z.toBlocks₁₁⁻¹ = d.Z.toBlocks₁₁⁻¹ * (g_s + g_x * C) := by
      have : d.S.toBlocks₁₁⁻¹ * d.T.toBlocks₁₁ = d.Z.toBlocks₁₁⁻¹ * ((g_s + g_x * C) * d.Z.toBlocks₁₁) := by
        rw [hP, ← Matrix.mul_assoc, nonsing_inv_mul _ hZ, Matrix.one_mul]
      rw [this, Matrix.mul_assoc, Matrix.mul_assoc, mul_nonsing_inv _ hZ, Matrix.mul_one]
    rw [mulVec_mulVec, ← hm, e1, hm, ← mulVec_mulVec, e, mulVec_smul]

/-- **C154.**  For every model that satisfies the conditions of Blanchard and Kahn, with real or complex roots, when
`ordqz` sorts and `select` tells the stable eigenvalues of the model from the others: the rule `C` that
`approximate_1st_order` returns is stable and is the saddle path, the only rule along which the linearised model stays
bounded. -/
theorem C154_saddle_path_partial {solve : MatSolver ℝ} (hsolve : solve.Correct)
    (hbk : BlanchardKahn g_s g_x f_s f_x f_S f_X)
    {qz : Matrix (Fin ns ⊕ Fin nx) (Fin ns ⊕ Fin nx) ℝ → Matrix (Fin ns ⊕ Fin nx) (Fin ns ⊕ Fin nx) ℝ → ℝ →
      QZ (Fin ns ⊕ Fin nx) ℝ}
    (hqz : (qz (pencilA f_S f_X) (pencilB g_s g_x f_s f_x) (1 - 1 / 10 ^ 8)).Correct
      (pencilA f_S f_X) (pencilB g_s g_x f_s f_x))
    (hord : (qz (pencilA f_S f_X) (pencilB g_s g_x f_s f_x) (1 - 1 / 10 ^ 8)).Ordered (1 - 1 / 10 ^ 8))
    (hsel : SelectsStable (1 - 1 / 10 ^ 8) (pencilA f_S f_X) (pencilB g_s g_x f_s f_x))
    (cut : WithTop ℝ → WithTop ℝ → ℝ) (r : FirstOrder ns nx ℝ)
    (h : approximate1stOrder solve qz cut g_s g_x f_s f_x f_S f_X = .ok r) :
    LinearSolution g_s g_x f_s f_x f_S f_X r.C ∧ (∀ z, IsEigenvalue (g_s + g_x * r.C) z → ‖z‖ < 1) ∧
      SaddlePath g_s g_x f_s f_x f_S f_X r.C := by
  have hs := separated_of_bk (by norm_num) hbk hqz hord hsel
  obtain ⟨-, -, h1, -, -⟩ := approximate_ok h
  obtain ⟨h2, h3⟩ := rule_eq hsolve h1
  refine ⟨linear_solution_of_split hqz hs.split h2 h3, transition_stable hqz hs h2 h3, fun s x => ?_⟩
  exact C137_saddle_path_blocks hsolve rfl hqz hs.split hs.unitT (powers_tendsto _ hs.stable)
    (powers_tendsto _ hs.unstable) cut r h s x

/-- **C154, real roots.**  When all roots are real, `select` tells the stable eigenvalues from the others unless there
is an unstable one within `1e-8` of the unit circle, measured by its square. -/
theorem C154_real_roots_partial {I : Type} [Fintype I] [DecidableEq I] {A B : Matrix I I ℝ}
    (hreal : ∀ l : ℂ, (cMat A - l • cMat B).det = 0 → ∃ x : ℝ, l = x ∧ ¬ (1 - 1 / 10 ^ 8 < x ^ 2 ∧ x ^ 2 ≤ 1)) :
    SelectsStable (1 - 1 / 10 ^ 8) A B := by
  intro l hl
  obtain ⟨x, rfl, hx⟩ := hreal l hl
  rw [moved_real, Complex.norm_real, Real.norm_eq_abs, ← one_lt_sq_iff_one_lt_abs]
  constructor
  · intro h; exact lt_trans (by norm_num) h
  · intro h
    by_contra hn
    exact hx ⟨h, not_lt.1 hn⟩

/-- **C154, complex roots.**  For a pair of complex eigenvalues `(a ± i b) / c` in the convention of the code, `select`
compares `a^2 - b^2`, the real part of the square, to `crit c^2`, and not the square of the modulus `a^2 + b^2`. -/
theorem C154_complex_roots (crit a b c : ℝ) :
    qzMoved crit (a + b * Complex.I) c ↔
      crit * c ^ 2 < a ^ 2 - b ^ 2 ∨ (crit * c ^ 2 = a ^ 2 - b ^ 2 ∧ a * b ≠ 0) := by
  have e1 : ((a + b * Complex.I : ℂ) ^ 2).re = a ^ 2 - b ^ 2 := by simp [pow_two]
  have e2 : ((a + b * Complex.I : ℂ) ^ 2).im = 2 * (a * b) := by simp [pow_two]; ring
  have e3 : ((star (a + b * Complex.I : ℂ)) ^ 2).re = a ^ 2 - b ^ 2 := by simp [pow_two]
  have e4 : ((star (a + b * Complex.I : ℂ)) ^ 2).im = -(2 * (a * b)) := by simp [pow_two]; ring
  unfold qzMoved qzSelect npComplexGt
  rw [e1, e2, e3, e4]
  simp only [Complex.ofReal_re, Complex.ofReal_im]
  constructor
  · rintro ((h | ⟨h, h'⟩) | (h | ⟨h, h'⟩))
    · exact .inl h
    · exact .inr ⟨h, fun h0 => by rw [h0] at h'; simp at h'⟩
    · exact .inl h
    · exact .inr ⟨h, fun h0 => by rw [h0] at h'; simp at h'⟩
  · rintro (h | ⟨h, h'⟩)
    · exact .inl (.inl h)
    · rcases lt_or_gt_of_ne h' with h0 | h0
      · exact .inr (.inr ⟨h, by linarith⟩)
      · exact .inl (.inr ⟨h, by linarith⟩)

end

section
variable {nm ns nx : ℕ}

/-- **C154, perfect foresight.**  Under the same conditions the horizon of perfect foresight only matters near its end
(see C151): the controls differ from the rule, and states and controls from the path under the rule, by at most
`c q^(N - 1 - i)` times the deviation at the last date. -/
theorem C154_horizon_partial {solve : MatSolver ℝ} (hsolve : solve.Correct)
    (qz : ∀ ns nx : ℕ, Matrix (Fin ns ⊕ Fin nx) (Fin ns ⊕ Fin nx) ℝ →
      Matrix (Fin ns ⊕ Fin nx) (Fin ns ⊕ Fin nx) ℝ → ℝ → QZ (Fin ns ⊕ Fin nx) ℝ)
    (cut : WithTop ℝ → WithTop ℝ → ℝ) (dv : Derivs nm ns nx ℝ)
    (hbk : BlanchardKahn dv.g_s dv.g_x dv.f_s dv.f_x dv.f_S dv.f_X)
    (hqz : let d := qz ns nx (pencilA dv.f_S dv.f_X) (pencilB dv.g_s dv.g_x dv.f_s dv.f_x) (1 - 1 / 10 ^ 8)
      d.Correct (pencilA dv.f_S dv.f_X) (pencilB dv.g_s dv.g_x dv.f_s dv.f_x) ∧ d.Ordered (1 - 1 / 10 ^ 8))
    (hsel : SelectsStable (1 - 1 / 10 ^ 8) (pencilA dv.f_S dv.f_X) (pencilB dv.g_s dv.g_x dv.f_s dv.f_x))
    (mb : Fin nm → ℝ) (sb : Fin ns → ℝ) (xb : Fin nx → ℝ) (t : BiTaylor nm ns nx ℝ)
    (h : perturb1 solve qz cut .iid dv mb sb xb = .ok t) (dr : (Fin nm → ℝ) → (Fin ns → ℝ) → Fin nx → ℝ)
    (hdr : ∀ m s, t.evalMS (.vec m) (.vec s) = .ok (.vec (dr m s))) :
    ∃ c > 0, ∃ q, 0 < q ∧ q < 1 ∧ ∀ N t0 start m s x, LinPFPath dv mb sb xb N t0 start m s x →
      ∀ i, t0 ≤ i → i < N →
        let last := ‖x (N - 1) - dr mb (s (N - 1))‖
        let sr := ruleStates dv mb sb xb dr (s t0) (i - t0)
        ‖x i - dr mb (s i)‖ ≤ c * q ^ (N - 1 - i) * last ∧
        ‖s i - sr‖ ≤ c * q ^ (N - 1 - i) * last ∧
        ‖x i - dr mb sr‖ ≤ c * q ^ (N - 1 - i) * last := by
  obtain ⟨r, -, hrule, hZ1, hC⟩ := perturb_rule hsolve qz cut dv mb sb xb t h dr hdr
  obtain ⟨hd, ho⟩ := hqz
  have hs := separated_of_bk (by norm_num) hbk hd ho hsel
  exact horizon_core hd hs.split hs.unitT hs.unstable hZ1 hC (transition_stable hd hs hZ1 hC) mb sb xb dr hrule

end

/-! ### A model meeting the hypotheses -/

section instances

private theorem polyS : pencilPoly (pencilA (0 : Matrix (Fin 1) (Fin 1) ℝ) (.of fun _ _ => -1))
    (pencilB (.of fun _ _ => 1 / 2) (0 : Matrix (Fin 1) (Fin 1) ℝ) (.of fun _ _ => -2) (.of fun _ _ => 2))
      = (X - C (1 / 2)) * (X - C 2) := by
  refine Polynomial.funext fun z => ?_
  rw [pencilPoly_eval]
  have e : z • cMat (pencilA (0 : Matrix (Fin 1) (Fin 1) ℝ) (.of fun _ _ => -1)) -
      cMat (pencilB (.of fun _ _ => 1 / 2) (0 : Matrix (Fin 1) (Fin 1) ℝ) (.of fun _ _ => -2) (.of fun _ _ => 2))
      = fromBlocks (.of fun _ _ => z - 1 / 2) 0 (.of fun _ _ => 2) (.of fun _ _ => z - 2) := by
    ext i j
    rcases i with i | i <;> rcases j with j | j <;> fin_cases i <;> fin_cases j <;> simp [pencilA, pencilB]
  rw [e, det_fromBlocks_zero₁₂, det_fin_one, det_fin_one]
  simp

/-- The asset of `dS` (a dividend and its price) satisfies the conditions. -/
theorem bkS : BlanchardKahn (.of fun _ _ => 1 / 2) (0 : Matrix (Fin 1) (Fin 1) ℝ) (.of fun _ _ => -2)
    (.of fun _ _ => 2) (0 : Matrix (Fin 1) (Fin 1) ℝ) (.of fun _ _ => -1) := by
  have hne : (X - C (1 / 2 : ℂ)) * (X - C 2) ≠ 0 := mul_ne_zero (X_sub_C_ne_zero _) (X_sub_C_ne_zero _)
  refine ⟨by rw [polyS]; exact hne, ?_, fun z hz => ?_⟩
  · rw [polyS, roots_mul hne, roots_X_sub_C, roots_X_sub_C, Multiset.filter_add, Multiset.filter_singleton,
      Multiset.filter_singleton, if_pos (by norm_num), if_neg (by norm_num)]
    rfl
  · rw [← pencilPoly_eval, polyS] at hz
    simp only [eval_mul, eval_sub, eval_X, eval_C, mul_eq_zero, sub_eq_zero] at hz
    rcases hz with rfl | rfl <;> norm_num

/-- `select` tells its eigenvalues 2 and 1/2 apart. -/
theorem selS : SelectsStable (1 - 1 / 10 ^ 8) (pencilA (0 : Matrix (Fin 1) (Fin 1) ℝ) (.of fun _ _ => -1))
    (pencilB (.of fun _ _ => 1 / 2) (0 : Matrix (Fin 1) (Fin 1) ℝ) (.of fun _ _ => -2) (.of fun _ _ => 2)) := by
  refine C154_real_roots_partial fun l hl => ?_
  by_cases h0 : l = 0
  · exact ⟨0, by simpa using h0, by norm_num⟩
  have := (scaled _ _ (inv_ne_zero h0)).2 (by rw [inv_inv]; exact hl)
  rw [← pencilPoly_eval, polyS] at this
  simp only [eval_mul, eval_sub, eval_X, eval_C, mul_eq_zero, sub_eq_zero] at this
  rcases this with h | h
  · refine ⟨2, ?_, by norm_num⟩
    rw [← inv_inv l, h]; norm_num
  · refine ⟨1 / 2, ?_, by norm_num⟩
    rw [← inv_inv l, h]; norm_num

/-- A decomposition split between states and controls is sorted if `select` separates its blocks. -/
theorem ordered_of_blocks {ns nx : ℕ} {d : QZ (Fin ns ⊕ Fin nx) ℝ} {crit : ℝ} (hS : d.S.toBlocks₂₁ = 0)
    (hT : d.T.toBlocks₂₁ = 0)
    (h1 : ∀ (α : ℂ) (β : ℝ), ¬ (α = 0 ∧ β = 0) →
      ((β : ℂ) • cMat d.S.toBlocks₁₁ - α • cMat d.T.toBlocks₁₁).det = 0 → qzMoved crit α β)
    (h2 : ∀ (α : ℂ) (β : ℝ), ¬ (α = 0 ∧ β = 0) →
      ((β : ℂ) • cMat d.S.toBlocks₂₂ - α • cMat d.T.toBlocks₂₂).det = 0 → ¬ qzMoved crit α β) : d.Ordered crit := by
  have hp : ∀ i : Fin ns ⊕ Fin nx, place i < ns ↔ i.isLeft := by
    intro i
    rcases i with i | i <;> simp [place]
  refine ⟨ns, fun i j hi hj => ?_, fun α β hne h => h1 α β hne ?_, fun α β hne h => h2 α β hne ?_⟩
  · rcases i with i | i
    · exact absurd ((hp (.inl i)).2 rfl) (not_lt.2 hi)
    · rcases j with j | j
      · exact ⟨congrFun (congrFun hS i) j, congrFun (congrFun hT i) j⟩
      · have := (hp _).1 hj; simp at this
  · rw [← h, ← det_submatrix_equiv_self (eqL hp)]
    rfl
  · rw [← h, ← det_submatrix_equiv_self (eqR hp)]
    rfl

/-- The decomposition `dS` is sorted. -/
theorem ordS : dS.Ordered (1 - 1 / 10 ^ 8) := by
  refine ordered_of_blocks (by ext i j; simp [dS, toBlocks₂₁]) (by ext i j; simp [dS, toBlocks₂₁])
    (fun α β hne h => ?_) (fun α β hne h => ?_)
  · rw [det_fin_one] at h
    simp [dS, toBlocks₁₁] at h
    have e : α = ((2 * β : ℝ) : ℂ) := by push_cast; linear_combination (-2 : ℂ) * h
    have hb : β ≠ 0 := fun h0 => hne ⟨by rw [e, h0]; simp, h0⟩
    left; left
    rw [e, ← Complex.ofReal_pow, Complex.ofReal_re, Complex.ofReal_re]
    have : 0 < β ^ 2 := by positivity
    nlinarith
  · rw [det_fin_one] at h
    simp [dS, toBlocks₂₂] at h
    have e : α = ((β / 2 : ℝ) : ℂ) := by push_cast; linear_combination (-1 / 2 : ℂ) * h
    have hb : β ≠ 0 := fun h0 => hne ⟨by rw [e, h0]; simp, h0⟩
    have : 0 < β ^ 2 := by positivity
    unfold qzMoved qzSelect npComplexGt
    rw [e, show star ((β / 2 : ℝ) : ℂ) = ((β / 2 : ℝ) : ℂ) from Complex.conj_ofReal _, ← Complex.ofReal_pow]
    simp only [Complex.ofReal_re, Complex.ofReal_im, lt_irrefl, and_false, or_false, or_self, not_lt]
    nlinarith

/-- All hypotheses of `C154_saddle_path_partial` hold for the asset, whose price is 4/3 of the dividend. -/
example : ∃ r, approximate1stOrder solverR (fun _ _ _ => dS) (fun _ _ => 0) (.of fun _ _ => 1 / 2)
    (0 : Matrix (Fin 1) (Fin 1) ℝ) (.of fun _ _ => -2) (.of fun _ _ => 2) 0 (.of fun _ _ => -1) = .ok r ∧
    r.C = (.of fun _ _ => 4 / 3) ∧ SaddlePath (.of fun _ _ => 1 / 2)
      (0 : Matrix (Fin 1) (Fin 1) ℝ) (.of fun _ _ => -2) (.of fun _ _ => 2) 0 (.of fun _ _ => -1) r.C := by
  obtain ⟨r, hr, hC⟩ := approxS
  exact ⟨r, hr, hC, (C154_saddle_path_partial solverR_correct bkS (qz := fun _ _ _ => dS) dS_correct ordS selS _ r hr).2.2⟩

/-! ### A pair of complex eigenvalues that `select` recognises -/

private noncomputable def gsP : Matrix (Fin 2) (Fin 2) ℝ := !![3 / 10, 1 / 10; -1 / 10, 3 / 10]
private noncomputable def fxP : Matrix (Fin 1) (Fin 1) ℝ := !![2]
private noncomputable def fXP : Matrix (Fin 1) (Fin 1) ℝ := !![-1]

private noncomputable def dP : QZ (Fin 2 ⊕ Fin 1) ℝ where
  S := pencilA 0 fXP
  T := pencilB gsP 0 0 fxP
  Q := 1
  Z := 1

private noncomputable def rootP : ℂ := ⟨3 / 10, 1 / 10⟩
private noncomputable def rootP' : ℂ := ⟨3 / 10, -1 / 10⟩

private theorem rootP_eqs : rootP + rootP' = 3 / 5 ∧ rootP * rootP' = 1 / 10 := by
  constructor <;> apply Complex.ext <;> simp [rootP, rootP'] <;> norm_num

private theorem rootP_norm : ‖rootP‖ < 1 ∧ ‖rootP'‖ < 1 := by
  have key : ∀ z : ℂ, Complex.normSq z < 1 → ‖z‖ < 1 := by
    intro z hz
    rw [Complex.normSq_eq_norm_sq] at hz
    exact (sq_lt_one_iff₀ (norm_nonneg _)).1 hz
  constructor <;> refine key _ ?_ <;> simp only [Complex.normSq_apply, rootP, rootP'] <;> norm_num

private theorem polyP : pencilPoly (pencilA (0 : Matrix (Fin 1) (Fin 2) ℝ) fXP) (pencilB gsP 0 0 fxP)
    = (X - C 2) * ((X - C rootP) * (X - C rootP')) := by
  refine Polynomial.funext fun z => ?_
  rw [pencilPoly_eval]
  let e : Fin 3 ≃ Fin 2 ⊕ Fin 1 := (finSumFinEquiv (m := 2) (n := 1)).symm
  have h0 : e 0 = .inl 0 := rfl
  have h1 : e 1 = .inl 1 := rfl
  have h2 : e 2 = .inr 0 := rfl
  rw [← det_submatrix_equiv_self e, det_fin_three]
  simp only [submatrix_apply, h0, h1, h2, eval_mul, eval_C, eval_sub, eval_X]
  simp [pencilA, pencilB, gsP, fxP, fXP]
  obtain ⟨k1, k2⟩ := rootP_eqs
  linear_combination ((z - 2) * z) * k1 - (z - 2) * k2

private theorem bkP : BlanchardKahn gsP 0 0 fxP 0 fXP := by
  have hne : (X - C rootP) * (X - C rootP') ≠ 0 := mul_ne_zero (X_sub_C_ne_zero _) (X_sub_C_ne_zero _)
  have hne2 : (X - C (2 : ℂ)) * ((X - C rootP) * (X - C rootP')) ≠ 0 := mul_ne_zero (X_sub_C_ne_zero _) hne
  refine ⟨?_, ?_, fun z hz => ?_⟩
  · rw [polyP]; exact hne2
  · rw [polyP, roots_mul hne2, roots_mul hne, roots_X_sub_C, roots_X_sub_C, roots_X_sub_C,
      Multiset.filter_add, Multiset.filter_add, Multiset.filter_singleton, Multiset.filter_singleton,
      Multiset.filter_singleton, if_neg (by norm_num), if_pos rootP_norm.1, if_pos rootP_norm.2]
    rfl
  · rw [← pencilPoly_eval, polyP] at hz
    simp only [eval_mul, eval_sub, eval_X, eval_C, mul_eq_zero, sub_eq_zero] at hz
    rcases hz with rfl | rfl | rfl
    · norm_num
    · exact rootP_norm.1.ne
    · exact rootP_norm.2.ne

/-- `(3 ± i) t` is moved to the top-left whatever the scale. -/
private theorem movedP {α : ℂ} {β : ℝ} (hb : β ≠ 0) (h : α = 3 * β + β * Complex.I ∨ α = 3 * β - β * Complex.I) :
    qzMoved (1 - 1 / 10 ^ 8) α β := by
  have hb2 : 0 < β ^ 2 := by positivity
  rcases h with rfl | rfl
  · have := (C154_complex_roots (1 - 1 / 10 ^ 8) (3 * β) β β).2 (.inl (by nlinarith))
    simpa using this
  · have := (C154_complex_roots (1 - 1 / 10 ^ 8) (3 * β) (-β) β).2 (.inl (by nlinarith))
    convert this using 1
    push_cast
    ring

private theorem selP : SelectsStable (1 - 1 / 10 ^ 8) (pencilA (0 : Matrix (Fin 1) (Fin 2) ℝ) fXP) (pencilB gsP 0 0 fxP) := by
  intro l hl
  have h0 : l ≠ 0 := by
    rintro rfl
    let e : Fin 3 ≃ Fin 2 ⊕ Fin 1 := (finSumFinEquiv (m := 2) (n := 1)).symm
    have h0 : e 0 = .inl 0 := rfl
    have h1 : e 1 = .inl 1 := rfl
    have h2 : e 2 = .inr 0 := rfl
    rw [← det_submatrix_equiv_self e, det_fin_three] at hl
    simp only [submatrix_apply, h0, h1, h2] at hl
    simp [pencilA, fXP] at hl
  have := (scaled _ _ (inv_ne_zero h0)).2 (by rw [inv_inv]; exact hl)
  rw [← pencilPoly_eval, polyP] at this
  simp only [eval_mul, eval_sub, eval_X, eval_C, mul_eq_zero, sub_eq_zero] at this
  rcases this with h | h | h
  · have e : l = ((1 / 2 : ℝ) : ℂ) := by rw [← inv_inv l, h]; norm_num
    rw [e, moved_real]
    norm_num
  · have e : l = rootP⁻¹ := by rw [← h, inv_inv]
    have e2 : l = 3 - Complex.I := by
      rw [e, inv_eq_of_mul_eq_one_right]
      apply Complex.ext <;> simp [rootP] <;> norm_num
    refine iff_of_true ?_ (movedP one_ne_zero (.inr (by rw [e2]; push_cast; ring)))
    rw [e, norm_inv]
    exact (one_lt_inv₀ (by rw [norm_pos_iff, ← h]; exact inv_ne_zero h0)).2 rootP_norm.1
  · have e : l = rootP'⁻¹ := by rw [← h, inv_inv]
    have e2 : l = 3 + Complex.I := by
      rw [e, inv_eq_of_mul_eq_one_right]
      apply Complex.ext <;> simp [rootP'] <;> norm_num
    refine iff_of_true ?_ (movedP one_ne_zero (.inl (by rw [e2]; push_cast; ring)))
    rw [e, norm_inv]
    exact (one_lt_inv₀ (by rw [norm_pos_iff, ← h]; exact inv_ne_zero h0)).2 rootP_norm.2

private theorem dP_correct : dP.Correct (pencilA 0 fXP) (pencilB gsP 0 0 fxP) := by
  refine ⟨?_, ?_, ?_, ?_⟩ <;> simp [dP]

private theorem ordP : dP.Ordered (1 - 1 / 10 ^ 8) := by
  refine ordered_of_blocks (by ext i j; simp [dP, pencilA, toBlocks₂₁]) (by ext i j; simp [dP, pencilB, toBlocks₂₁])
    (fun α β hne h => ?_) (fun α β hne h => ?_)
  · rw [det_fin_two] at h
    simp [dP, pencilA, pencilB, gsP, toBlocks₁₁] at h
    have h' : (α - (3 * β + β * Complex.I)) * (α - (3 * β - β * Complex.I)) = 0 := by
      linear_combination 10 * h - (β : ℂ) ^ 2 * Complex.I_sq
    have hd := mul_eq_zero.1 h'
    rw [sub_eq_zero, sub_eq_zero] at hd
    refine movedP (fun hb => hne ⟨?_, hb⟩) hd
    rcases hd with e | e <;> rw [e, hb] <;> simp
  · rw [det_fin_one] at h
    simp [dP, pencilA, pencilB, fXP, fxP, toBlocks₂₂] at h
    have e : α = ((β / 2 : ℝ) : ℂ) := by push_cast; linear_combination (-1 / 2 : ℂ) * h
    have hb : β ≠ 0 := fun h0 => hne ⟨by rw [e, h0]; simp, h0⟩
    have : 0 < β ^ 2 := by positivity
    unfold qzMoved qzSelect npComplexGt
    rw [e, show star ((β / 2 : ℝ) : ℂ) = ((β / 2 : ℝ) : ℂ) from Complex.conj_ofReal _, ← Complex.ofReal_pow]
    simp only [Complex.ofReal_re, Complex.ofReal_im, lt_irrefl, and_false, or_false, or_self, not_lt]
    nlinarith

/-- The hypotheses of `C154_saddle_path_partial` hold for a model whose stable roots are the pair `(3 ± i) / 10`. -/
example : BlanchardKahn gsP 0 0 fxP 0 fXP ∧ dP.Correct (pencilA 0 fXP) (pencilB gsP 0 0 fxP) ∧
    dP.Ordered (1 - 1 / 10 ^ 8) ∧ SelectsStable (1 - 1 / 10 ^ 8) (pencilA (0 : Matrix (Fin 1) (Fin 2) ℝ) fXP) (pencilB gsP 0 0 fxP) :=
  ⟨bkP, dP_correct, ordP, selP⟩

/-! ### A pair of complex eigenvalues -/

private noncomputable def gsK : Matrix (Fin 2) (Fin 2) ℝ := !![18 / 25, 0; -32 / 125, 6 / 25]
private noncomputable def gxK : Matrix (Fin 2) (Fin 1) ℝ := !![24 / 25; 24 / 125]
private noncomputable def fsK : Matrix (Fin 1) (Fin 2) ℝ := !![-12 / 25, -4 / 5]
private noncomputable def fxK : Matrix (Fin 1) (Fin 1) ℝ := !![9 / 25]
private noncomputable def fSK : Matrix (Fin 1) (Fin 2) ℝ := !![22 / 25, -1 / 5]
private noncomputable def fXK : Matrix (Fin 1) (Fin 1) ℝ := !![-33 / 50]

/-- A real Schur decomposition of the model, with the unstable eigenvalue first and the pair of stable ones after it. -/
private noncomputable def dK : QZ (Fin 2 ⊕ Fin 1) ℝ where
  S := fromBlocks !![3 / 5, -16 / 25; 0, 3 / 5] !![-12 / 25; -4 / 5] !![0, 1] !![1 / 2]
  T := fromBlocks !![6 / 5, 0; 0, 2 / 5] 0 0 !![1]
  Q := 1
  Z := fromBlocks !![3 / 5, -16 / 25; 0, 3 / 5] !![-12 / 25; -4 / 5] !![4 / 5, 12 / 25] !![9 / 25]

private theorem dK_correct : dK.Correct (pencilA fSK fXK) (pencilB gsK gxK fsK fxK) := by
  refine ⟨?_, ?_, by simp [dK], ?_⟩
  · ext i j
    rcases i with i | i <;> rcases j with j | j <;> fin_cases i <;> fin_cases j <;>
      simp [dK, pencilA, fSK, fXK, Matrix.mul_apply, Fin.sum_univ_two] <;> norm_num
  · ext i j
    rcases i with i | i <;> rcases j with j | j <;> fin_cases i <;> fin_cases j <;>
      simp [dK, pencilB, gsK, gxK, fsK, fxK, Matrix.mul_apply, Fin.sum_univ_two] <;> norm_num
  · ext i j
    rcases i with i | i <;> rcases j with j | j <;> fin_cases i <;> fin_cases j <;>
      simp [dK, Matrix.mul_apply, Fin.sum_univ_two] <;> norm_num

/-- The determinant of the pencil. -/
private theorem detK (α : ℂ) (β : ℂ) : (β • cMat dK.S - α • cMat dK.T).det
    = 3 / 50 * (β - 2 * α) * (11 * β ^ 2 - 8 * α * β + 4 * α ^ 2) := by
  let e : Fin 3 ≃ Fin 2 ⊕ Fin 1 := (finSumFinEquiv (m := 2) (n := 1)).symm
  have h0 : e 0 = .inl 0 := rfl
  have h1 : e 1 = .inl 1 := rfl
  have h2 : e 2 = .inr 0 := rfl
  rw [← det_submatrix_equiv_self e, det_fin_three]
  simp only [submatrix_apply, h0, h1, h2]
  simp [dK]
  ring

/-- The roots of the quadratic factor. -/
private theorem quadK {α : ℂ} {β : ℝ} (h : 11 * (β : ℂ) ^ 2 - 8 * α * β + 4 * α ^ 2 = 0) :
    α.re = β ∧ α.im ^ 2 = 7 / 4 * β ^ 2 := by
  have hr := congrArg Complex.re h
  have hi := congrArg Complex.im h
  simp [pow_two] at hr hi
  by_cases hy : α.im = 0
  · rw [hy] at hr ⊢
    have : α.re = 0 ∧ β = 0 := by
      have k1 : β ^ 2 ≤ 0 := by nlinarith [sq_nonneg (α.re - β)]
      have k2 : α.re ^ 2 ≤ 0 := by nlinarith [sq_nonneg (11 * β - 4 * α.re)]
      exact ⟨pow_eq_zero_iff two_ne_zero |>.1 (le_antisymm k2 (sq_nonneg _)),
        pow_eq_zero_iff two_ne_zero |>.1 (le_antisymm k1 (sq_nonneg _))⟩
    rw [this.1, this.2]; simp
  · have h1 : α.re = β := by
      have : α.im * (α.re - β) = 0 := by linarith
      rcases mul_eq_zero.1 this with h | h
      · exact absurd h hy
      · linarith
    refine ⟨h1, ?_⟩
    rw [h1] at hr
    nlinarith

private theorem ordK : dK.Ordered (1 - 1 / 10 ^ 8) := by
  refine ⟨0, fun i j hi hj => by omega, fun α β hne h => ?_, fun α β hne h => ?_⟩
  · exfalso
    have : IsEmpty {i : Fin 2 ⊕ Fin 1 // place i < 0} := ⟨fun i => by have := i.2; omega⟩
    rw [det_isEmpty] at h
    exact one_ne_zero h
  · have hp : ∀ i : Fin 2 ⊕ Fin 1, ¬ place i < 0 := fun i => by omega
    have h' : ((β : ℂ) • cMat dK.S - α • cMat dK.T).det = 0 := by
      rw [← h, ← det_submatrix_equiv_self (Equiv.subtypeUnivEquiv hp)]
      rfl
    rw [detK, mul_eq_zero, mul_eq_zero] at h'
    have hconj : ∀ α : ℂ, α.re ^ 2 - α.im ^ 2 < (1 - 1 / 10 ^ 8) * β ^ 2 → ¬ qzMoved (1 - 1 / 10 ^ 8) α β := by
      intro α hlt
      have e1 : (α ^ 2).re = α.re ^ 2 - α.im ^ 2 := by simp [pow_two]
      have e2 : ((star α) ^ 2).re = α.re ^ 2 - α.im ^ 2 := by simp [pow_two]
      unfold qzMoved qzSelect npComplexGt
      rw [e1, e2]
      simp only [Complex.ofReal_re]
      rintro ((h | ⟨h, -⟩) | (h | ⟨h, -⟩)) <;> linarith
    refine hconj α ?_
    rcases h' with (h' | h') | h'
    · norm_num at h'
    · have e : α = ((β / 2 : ℝ) : ℂ) := by push_cast; linear_combination (-1 / 2 : ℂ) * h'
      have hb : β ≠ 0 := fun h0 => hne ⟨by rw [e, h0]; simp, h0⟩
      have : 0 < β ^ 2 := by positivity
      rw [e, Complex.ofReal_re, Complex.ofReal_im]
      nlinarith
    · obtain ⟨h1, h2⟩ := quadK h'
      have hb : β ≠ 0 := by
        intro h0
        rw [h0] at h1 h2
        refine hne ⟨Complex.ext h1 ?_, h0⟩
        have : α.im ^ 2 = 0 := by rw [h2]; ring
        simpa using this
      have : 0 < β ^ 2 := by positivity
      rw [h1, h2]
      nlinarith

private noncomputable def rootK : ℂ := ⟨4 / 11, Real.sqrt 28 / 11⟩
private noncomputable def rootK' : ℂ := ⟨4 / 11, -(Real.sqrt 28 / 11)⟩

private theorem rootK_eqs : rootK + rootK' = 8 / 11 ∧ rootK * rootK' = 4 / 11 := by
  have h := Real.mul_self_sqrt (show (0 : ℝ) ≤ 28 by norm_num)
  constructor
  · apply Complex.ext <;> simp [rootK, rootK'] <;> norm_num
  · apply Complex.ext <;> simp [rootK, rootK'] <;> nlinarith

private theorem polyK : pencilPoly (pencilA fSK fXK) (pencilB gsK gxK fsK fxK)
    = C (33 / 50) * ((X - C 2) * ((X - C rootK) * (X - C rootK'))) := by
  refine Polynomial.funext fun z => ?_
  rw [pencilPoly_eval]
  let e : Fin 3 ≃ Fin 2 ⊕ Fin 1 := (finSumFinEquiv (m := 2) (n := 1)).symm
  have h0 : e 0 = .inl 0 := rfl
  have h1 : e 1 = .inl 1 := rfl
  have h2 : e 2 = .inr 0 := rfl
  rw [← det_submatrix_equiv_self e, det_fin_three]
  simp only [submatrix_apply, h0, h1, h2, eval_mul, eval_C, eval_sub, eval_X]
  simp [pencilA, pencilB, gsK, gxK, fsK, fxK, fSK, fXK]
  obtain ⟨k1, k2⟩ := rootK_eqs
  linear_combination (33 / 50 * (z - 2) * z) * k1 - 33 / 50 * (z - 2) * k2

private theorem rootK_norm : ‖rootK‖ < 1 ∧ ‖rootK'‖ < 1 := by
  have h := Real.mul_self_sqrt (show (0 : ℝ) ≤ 28 by norm_num)
  have key : ∀ z : ℂ, Complex.normSq z < 1 → ‖z‖ < 1 := by
    intro z hz
    rw [Complex.normSq_eq_norm_sq] at hz
    exact (sq_lt_one_iff₀ (norm_nonneg _)).1 hz
  constructor <;> refine key _ ?_ <;> simp only [Complex.normSq_apply, rootK, rootK'] <;> nlinarith

private theorem bkK : BlanchardKahn gsK gxK fsK fxK fSK fXK := by
  have hne : (X - C rootK) * (X - C rootK') ≠ 0 := mul_ne_zero (X_sub_C_ne_zero _) (X_sub_C_ne_zero _)
  have hne2 : (X - C (2 : ℂ)) * ((X - C rootK) * (X - C rootK')) ≠ 0 := mul_ne_zero (X_sub_C_ne_zero _) hne
  have hc : (33 / 50 : ℂ) ≠ 0 := by norm_num
  refine ⟨?_, ?_, fun z hz => ?_⟩
  · rw [polyK]; exact mul_ne_zero (C_ne_zero.2 hc) hne2
  · rw [polyK, roots_C_mul _ hc, roots_mul hne2, roots_mul hne, roots_X_sub_C, roots_X_sub_C, roots_X_sub_C,
      Multiset.filter_add, Multiset.filter_add, Multiset.filter_singleton, Multiset.filter_singleton,
      Multiset.filter_singleton, if_neg (by norm_num), if_pos rootK_norm.1, if_pos rootK_norm.2]
    rfl
  · rw [← pencilPoly_eval, polyK] at hz
    simp only [eval_mul, eval_sub, eval_X, eval_C, mul_eq_zero, sub_eq_zero] at hz
    rcases hz with h | rfl | rfl | rfl
    · exact absurd h hc
    · norm_num
    · exact rootK_norm.1.ne
    · exact rootK_norm.2.ne

private theorem dK_eig : genEig dK (.inl 0) = ((1 / 2 : ℝ) : WithTop ℝ) ∧ genEig dK (.inl 1) = ((3 / 2 : ℝ) : WithTop ℝ) ∧
    genEig dK (.inr 0) = ((1 / 2 : ℝ) : WithTop ℝ) := by
  refine ⟨?_, ?_, ?_⟩ <;> simp [genEig, dK] <;> norm_num

private theorem approxK : ∃ r, approximate1stOrder solverR (fun _ _ _ => dK) (fun _ _ => 0) gsK gxK fsK fxK fSK fXK = .ok r ∧
    r.warned = false ∧ r.C = !![4 / 3, 20 / 9] := by
  have h1 : diagOk dK = true := by
    simp [diagOk, dK, List.ofFn_succ]
    norm_num
  have h2 : bkTest dK = .ok true := by
    have h3 : (1 : WithTop ℝ) ≤ ((3 / 2 : ℝ) : WithTop ℝ) := by exact_mod_cast (by norm_num : (1 : ℝ) ≤ 3 / 2)
    have h4 : ((1 / 2 : ℝ) : WithTop ℝ) < 1 := by exact_mod_cast (by norm_num : (1 / 2 : ℝ) < 1)
    have h5 : max ((1 / 2 : ℝ) : WithTop ℝ) ((3 / 2 : ℝ) : WithTop ℝ) = ((3 / 2 : ℝ) : WithTop ℝ) :=
      max_eq_right (by exact_mod_cast (by norm_num : (1 / 2 : ℝ) ≤ 3 / 2))
    unfold bkTest
    rw [take_eigList, drop_eigList]
    have e1 : genEig dK (.inl (Fin.succ 0)) = ((3 / 2 : ℝ) : WithTop ℝ) := dK_eig.2.1
    simp only [List.ofFn_succ, List.ofFn_zero, dK_eig.1, dK_eig.2.2, e1, pyMax, pyMin, List.foldl_nil, List.foldl_cons, h5,
      bind, Except.bind, h3, if_true, pure, Except.pure, h4, decide_true]
  have h3 : ruleFromQZ solverR dK = .ok !![4 / 3, 20 / 9] := by
    unfold ruleFromQZ
    have hdet : IsUnit (dK.Z.toBlocks₁₁)ᵀ.det := by
      rw [Matrix.det_fin_two]; simp [dK]
    simp only [solverR, if_pos hdet, bind, Except.bind, pure, Except.pure, Except.ok.injEq]
    have : (dK.Z.toBlocks₁₁)ᵀ⁻¹ * (dK.Z.toBlocks₂₁)ᵀ = (!![4 / 3; 20 / 9] : Matrix (Fin 2) (Fin 1) ℝ) := by
      have e : (dK.Z.toBlocks₂₁)ᵀ = (dK.Z.toBlocks₁₁)ᵀ * (!![4 / 3; 20 / 9] : Matrix (Fin 2) (Fin 1) ℝ) := by
        ext i j; fin_cases i <;> fin_cases j <;> simp [dK, Matrix.mul_apply, Fin.sum_univ_two] <;> norm_num
      rw [e, ← Matrix.mul_assoc, Matrix.nonsing_inv_mul _ hdet, Matrix.one_mul]
    rw [this]
    ext i j; fin_cases i; fin_cases j <;> rfl
  unfold approximate1stOrder selectRule
  simp only [h1, h2, h3, bind, Except.bind, pure, Except.pure]
  exact ⟨_, rfl, rfl, rfl⟩

/-- **C154 fails for complex roots.**  A model with two states and one control satisfies the conditions of Blanchard and
Kahn and has a stable solution; its stable roots are a pair of complex numbers of modulus `(4/11)^(1/2)`.  `select` looks
at the real part of the square of `alpha` and moves neither of them, so that a sorted decomposition may have the
unstable eigenvalue first.  With it `approximate_1st_order` returns, without warning, a matrix that does not satisfy the
linearised equations. -/
theorem C154_complex_fails :
    ∃ (g_s : Matrix (Fin 2) (Fin 2) ℝ) (g_x : Matrix (Fin 2) (Fin 1) ℝ) (f_s : Matrix (Fin 1) (Fin 2) ℝ)
      (f_x : Matrix (Fin 1) (Fin 1) ℝ) (f_S : Matrix (Fin 1) (Fin 2) ℝ) (f_X : Matrix (Fin 1) (Fin 1) ℝ)
      (solve : MatSolver ℝ) (d : QZ (Fin 2 ⊕ Fin 1) ℝ) (r : FirstOrder 2 1 ℝ) (Cs : Matrix (Fin 1) (Fin 2) ℝ),
      BlanchardKahn g_s g_x f_s f_x f_S f_X ∧ solve.Correct ∧
      d.Correct (pencilA f_S f_X) (pencilB g_s g_x f_s f_x) ∧ d.Ordered (1 - 1 / 10 ^ 8) ∧
      LinearSolution g_s g_x f_s f_x f_S f_X Cs ∧ (∀ z, IsEigenvalue (g_s + g_x * Cs) z → ‖z‖ < 1) ∧
      approximate1stOrder solve (fun _ _ _ => d) (fun _ _ => 0) g_s g_x f_s f_x f_S f_X = .ok r ∧ r.warned = false ∧
      ¬ LinearSolution g_s g_x f_s f_x f_S f_X r.C := by
  obtain ⟨r, hr, hw, hC⟩ := approxK
  refine ⟨gsK, gxK, fsK, fxK, fSK, fXK, solverR, dK, r, !![-47 / 121, 265 / 363], bkK, solverR_correct, dK_correct, ordK,
    ?_, ?_, hr, hw, ?_⟩
  · unfold LinearSolution
    ext i j
    fin_cases i; fin_cases j <;>
      simp [gsK, gxK, fsK, fxK, fSK, fXK, Matrix.mul_apply, Fin.sum_univ_two] <;> norm_num
  · rintro z ⟨v, hv, e⟩
    have e0 := congrFun e 0
    have e1 := congrFun e 1
    simp [gsK, gxK, Matrix.mulVec, dotProduct, Matrix.mul_apply, Fin.sum_univ_two] at e0 e1
    have q : ∀ i, (z - rootK) * (z - rootK') * v i = 0 := by
      obtain ⟨k1, k2⟩ := rootK_eqs
      intro i
      fin_cases i
      · change _ * v 0 = 0
        linear_combination ((46 / 121) - z) * e0 - (424 / 605) * e1 - z * v 0 * k1 + v 0 * k2
      · change _ * v 1 = 0
        linear_combination ((42 / 121) - z) * e1 - (-40 / 121) * e0 - z * v 1 * k1 + v 1 * k2
    obtain ⟨i, hi⟩ := Function.ne_iff.1 hv
    rcases mul_eq_zero.1 ((mul_eq_zero.1 (q i)).resolve_right hi) with h | h <;> rw [sub_eq_zero.1 h]
    exacts [rootK_norm.1, rootK_norm.2]
  · rw [hC]
    intro h
    have := congrFun (congrFun h 0) 1
    simp [gsK, gxK, fsK, fxK, fSK, fXK, Matrix.mul_apply, Fin.sum_univ_two] at this
    norm_num at this

end instances

end Dolo
