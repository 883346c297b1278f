import Mathlib.Topology.Instances.Matrix
import Mathlib.Analysis.SpecificLimits.Basic
import Mathlib.Analysis.Normed.Group.Basic
import Mathlib.Topology.Algebra.Order.Field
import Verif.Props.Perturbation
import Verif.Props.MethodsAgree

/-!
# C137: the first-order solution is the saddle path
-/

set_option linter.unusedSectionVars false

namespace Dolo

open Matrix Filter Topology

/-- The sequence is bounded. -/
def BoundedSeq {ι : Type} (v : ℕ → ι → ℝ) : Prop := ∃ b : ℝ, ∀ t i, |v t i| ≤ b

/-- A path of the linearised model: transitions and arbitrage equations hold at all dates. -/
def LinearPath {ns nx : ℕ} (g_s : Matrix (Fin ns) (Fin ns) ℝ) (g_x : Matrix (Fin ns) (Fin nx) ℝ)
    (f_s : Matrix (Fin nx) (Fin ns) ℝ) (f_x : Matrix (Fin nx) (Fin nx) ℝ) (f_S : Matrix (Fin nx) (Fin ns) ℝ)
    (f_X : Matrix (Fin nx) (Fin nx) ℝ) (s : ℕ → Fin ns → ℝ) (x : ℕ → Fin nx → ℝ) : Prop :=
  (∀ t, s (t + 1) = g_s *ᵥ s t + g_x *ᵥ x t) ∧
  ∀ t, f_s *ᵥ s t + f_x *ᵥ x t + f_S *ᵥ s (t + 1) + f_X *ᵥ x (t + 1) = 0

/-! ### Triangular recursions -/

theorem bounded_mulVec {ι κ : Type} [Fintype κ] [Finite ι] (A : Matrix ι κ ℝ) {v : ℕ → κ → ℝ} (h : BoundedSeq v) :
    BoundedSeq fun t => A *ᵥ v t := by
  obtain ⟨b, hb⟩ := h
  have := Fintype.ofFinite ι
  refine ⟨∑ i, ∑ j, |A i j| * b, fun t i => ?_⟩
  have h1 : |(A *ᵥ v t) i| ≤ ∑ j, |A i j| * b := by
    unfold Matrix.mulVec dotProduct
    refine (Finset.abs_sum_le_sum_abs _ _).trans (Finset.sum_le_sum fun j _ => ?_)
    rw [abs_mul]
    exact mul_le_mul_of_nonneg_left (hb t j) (abs_nonneg _)
  refine h1.trans (Finset.single_le_sum (f := fun i => ∑ j, |A i j| * b) (fun i _ => ?_) (Finset.mem_univ i))
  refine Finset.sum_nonneg fun j _ => mul_nonneg (abs_nonneg _) ((abs_nonneg _).trans (hb t j))

/-- A bounded scalar sequence with `w t = n w (t + 1)`, `|n| < 1`, is zero. -/
theorem scalar_backward {n : ℝ} (hn : |n| < 1) {w : ℕ → ℝ} {b : ℝ} (hb : ∀ t, |w t| ≤ b)
    (h : ∀ t, w t = n * w (t + 1)) (t : ℕ) : w t = 0 := by
  have key : ∀ k, |w t| ≤ |n| ^ k * b := by
    have e : ∀ k, w t = n ^ k * w (t + k) := by
      intro k
      induction k with
      | zero => simp
      | succ k ih => rw [ih, h (t + k), pow_succ]; ring_nf
    intro k
    rw [e k, abs_mul, abs_pow]
    exact mul_le_mul_of_nonneg_left (hb _) (pow_nonneg (abs_nonneg _) _)
  have lim : Tendsto (fun k => |n| ^ k * b) atTop (𝓝 0) := by
    have := (tendsto_pow_atTop_nhds_zero_of_lt_one (abs_nonneg n) hn).mul_const b
    simpa using this
  have := ge_of_tendsto' lim key
  exact abs_nonpos_iff.1 this

/-- A scalar sequence with `u (t + 1) = m u t + c t`, `|m| < 1` and `c` bounded, is bounded. -/
theorem scalar_forward {m : ℝ} (hm : |m| < 1) {u c : ℕ → ℝ} {b : ℝ} (hb : ∀ t, |c t| ≤ b)
    (h : ∀ t, u (t + 1) = m * u t + c t) : ∃ B, ∀ t, |u t| ≤ B := by
  have hb0 : 0 ≤ b := (abs_nonneg _).trans (hb 0)
  have hpos : 0 < 1 - |m| := by linarith
  refine ⟨|u 0| + b / (1 - |m|), fun t => ?_⟩
  induction t with
  | zero => have : 0 ≤ b / (1 - |m|) := by positivity
            linarith
  | succ t ih =>
    rw [h t]
    have h1 : |m * u t + c t| ≤ |m| * |u t| + b := by
      refine (abs_add_le _ _).trans ?_
      rw [abs_mul]
      linarith [hb t]
    have h2 : |m| * |u t| ≤ |m| * (|u 0| + b / (1 - |m|)) := mul_le_mul_of_nonneg_left ih (abs_nonneg _)
    have h3 : |m| * (b / (1 - |m|)) + b = b / (1 - |m|) := by
      field_simp
      ring
    have h4 : |m| * |u 0| ≤ |u 0| := by
      have := abs_nonneg (u 0)
      nlinarith
    rw [mul_add] at h2
    linarith

/-- Upper triangular `S w (t + 1) = T w t` with `|S i i| < |T i i|`: the only bounded sequence is zero. -/
theorem triangular_backward {n : ℕ} (S T : Matrix (Fin n) (Fin n) ℝ) (hS : ∀ i j, j < i → S i j = 0)
    (hT : ∀ i j, j < i → T i j = 0) (hd : ∀ i, |S i i| < |T i i|) {w : ℕ → Fin n → ℝ} (hb : BoundedSeq w)
    (h : ∀ t, S *ᵥ w (t + 1) = T *ᵥ w t) (t : ℕ) : w t = 0 := by
  obtain ⟨b, hb⟩ := hb
  have key : ∀ k : ℕ, ∀ i : Fin n, n - 1 - (i : ℕ) < k → ∀ t, w t i = 0 := by
    intro k
    induction k with
    | zero => intro i hi; omega
    | succ k ih =>
      intro i hi
      have hz : ∀ j, i < j → ∀ t, w t j = 0 := fun j hj => ih j (by
        have := j.2
        have : (i : ℕ) < j := hj
        omega)
      have row : ∀ (M : Matrix (Fin n) (Fin n) ℝ), (∀ i j, j < i → M i j = 0) → ∀ t, (M *ᵥ w t) i = M i i * w t i := by
        intro M hM t
        change ∑ j, M i j * w t j = _
        rw [Finset.sum_eq_single i]
        · intro j _ hj
          rcases lt_or_gt_of_ne hj with h | h
          · rw [hM i j h, zero_mul]
          · rw [hz j h t, mul_zero]
        · intro h; exact absurd (Finset.mem_univ i) h
      have hTi : T i i ≠ 0 := fun e => by
        have := hd i
        rw [e, abs_zero] at this
        exact absurd (abs_nonneg (S i i)) (not_le.2 this)
      refine scalar_backward (n := S i i / T i i) (by
        rw [abs_div, div_lt_one (abs_pos.2 hTi)]; exact hd i) (fun t => hb t i) fun t => ?_
      have := congrFun (h t) i
      rw [row S hS, row T hT] at this
      rw [div_mul_eq_mul_div, this, mul_div_cancel_left₀ _ hTi]
  funext i
  exact key n i (by have := i.2; omega) t

/-- Upper triangular `S u (t + 1) = T u t` with `|T i i| < |S i i|`: all sequences are bounded. -/
theorem triangular_forward {n : ℕ} (S T : Matrix (Fin n) (Fin n) ℝ) (hS : ∀ i j, j < i → S i j = 0)
    (hT : ∀ i j, j < i → T i j = 0) (hd : ∀ i, |T i i| < |S i i|) {u : ℕ → Fin n → ℝ}
    (h : ∀ t, S *ᵥ u (t + 1) = T *ᵥ u t) : BoundedSeq u := by
  have key : ∀ k : ℕ, ∃ b, ∀ i : Fin n, n - 1 - (i : ℕ) < k → ∀ t, |u t i| ≤ b := by
    intro k
    induction k with
    | zero => exact ⟨0, fun i hi => by omega⟩
    | succ k ih =>
      obtain ⟨b, hb⟩ := ih
      have step : ∀ i : Fin n, n - 1 - (i : ℕ) < k + 1 → ∃ B, ∀ t, |u t i| ≤ B := by
        intro i hi
        have hSi : S i i ≠ 0 := fun e => by
          have := hd i
          rw [e, abs_zero] at this
          exact absurd (abs_nonneg (T i i)) (not_le.2 this)
        have hlt : ∀ j, i < j → n - 1 - (j : ℕ) < k := fun j hj => by
          have := j.2
          have : (i : ℕ) < j := hj
          omega
        have row : ∀ (M : Matrix (Fin n) (Fin n) ℝ), (∀ i j, j < i → M i j = 0) → ∀ t,
            (M *ᵥ u t) i = M i i * u t i + ∑ j, if i < j then M i j * u t j else 0 := by
          intro M hM t
          change ∑ j, M i j * u t j = _
          rw [← Finset.add_sum_erase _ (fun j => M i j * u t j) (Finset.mem_univ i)]
          congr 1
          rw [← Finset.add_sum_erase _ (fun j => if i < j then M i j * u t j else 0) (Finset.mem_univ i), if_neg (lt_irrefl _),
            zero_add]
          refine Finset.sum_congr rfl fun j hj => ?_
          have hj := Finset.ne_of_mem_erase hj
          rcases lt_or_gt_of_ne hj with h | h
          · rw [hM i j h, zero_mul, if_neg (not_lt.2 h.le)]
          · rw [if_pos h]
        have bnd : ∀ (M : Matrix (Fin n) (Fin n) ℝ) t, |∑ j, if i < j then M i j * u t j else 0| ≤ ∑ j, |M i j| * |b| := by
          intro M t
          refine (Finset.abs_sum_le_sum_abs _ _).trans (Finset.sum_le_sum fun j _ => ?_)
          split_ifs with hij
          · rw [abs_mul]
            exact mul_le_mul_of_nonneg_left ((hb j (hlt j hij) t).trans (le_abs_self b)) (abs_nonneg _)
          · rw [abs_zero]; positivity
        refine scalar_forward (m := T i i / S i i) (c := fun t => ((∑ j, if i < j then T i j * u t j else 0)
          - ∑ j, if i < j then S i j * u (t + 1) j else 0) / S i i)
          (b := ((∑ j, |T i j| * |b|) + ∑ j, |S i j| * |b|) / |S i i|) (by
          rw [abs_div, div_lt_one (abs_pos.2 hSi)]; exact hd i) (fun t => ?_) fun t => ?_
        · rw [abs_div]
          refine div_le_div_of_nonneg_right ?_ (abs_nonneg _)
          exact (abs_sub _ _).trans (add_le_add (bnd T t) (bnd S (t + 1)))
        · have := congrFun (h t) i
          rw [row S hS, row T hT] at this
          field_simp
          linarith
      refine ⟨∑ i : Fin n, if hi : n - 1 - (i : ℕ) < k + 1 then (step i hi).choose else 0, fun i hi t => ?_⟩
      have nn : ∀ i : Fin n, 0 ≤ (if hi : n - 1 - (i : ℕ) < k + 1 then (step i hi).choose else 0) := by
        intro i
        split_ifs with hi
        · exact (abs_nonneg _).trans ((step i hi).choose_spec 0)
        · exact le_rfl
      have h1 := (step i hi).choose_spec t
      refine h1.trans ?_
      have := Finset.single_le_sum (f := fun i : Fin n => if hi : n - 1 - (i : ℕ) < k + 1 then (step i hi).choose else 0)
        (fun i _ => nn i) (Finset.mem_univ i)
      simpa only [dif_pos hi] using this
  obtain ⟨b, hb⟩ := key n
  exact ⟨b, fun t i => hb i (by have := i.2; omega) t⟩

/-! ### Recursions with powers -/

theorem powers_backward {n : ℕ} (N : Matrix (Fin n) (Fin n) ℝ) (hN : Tendsto (fun k => N ^ k) atTop (𝓝 0))
    {w : ℕ → Fin n → ℝ} (hb : BoundedSeq w) (h : ∀ t, w t = N *ᵥ w (t + 1)) (t : ℕ) : w t = 0 := by
  obtain ⟨b, hb⟩ := hb
  have e : ∀ k, w t = N ^ k *ᵥ w (t + k) := by
    intro k
    induction k with
    | zero => simp
    | succ k ih => rw [ih, h (t + k), mulVec_mulVec, pow_succ, Nat.add_assoc]
  funext i
  have h1 : ∀ k, |w t i| ≤ ∑ j, |(N ^ k) i j| * b := by
    intro k
    rw [e k]
    change |∑ j, (N ^ k) i j * w (t + k) j| ≤ _
    refine (Finset.abs_sum_le_sum_abs _ _).trans (Finset.sum_le_sum fun j _ => ?_)
    rw [abs_mul]
    exact mul_le_mul_of_nonneg_left (hb _ _) (abs_nonneg _)
  have h2 : Tendsto (fun k => ∑ j, |(N ^ k) i j| * b) atTop (𝓝 (∑ j : Fin n, |(0 : Matrix (Fin n) (Fin n) ℝ) i j| * b)) := by
    refine tendsto_finset_sum _ fun j _ => ?_
    have h3 : Tendsto (fun k => (N ^ k) i j) atTop (𝓝 ((0 : Matrix (Fin n) (Fin n) ℝ) i j)) :=
      ((continuous_apply_apply i j).tendsto _).comp hN
    exact h3.abs.mul_const b
  have h3 := ge_of_tendsto' h2 h1
  simp only [Matrix.zero_apply, abs_zero, zero_mul, Finset.sum_const_zero] at h3
  exact abs_nonpos_iff.1 h3

theorem powers_forward {n : ℕ} (P : Matrix (Fin n) (Fin n) ℝ) (hP : Tendsto (fun k => P ^ k) atTop (𝓝 0))
    {u : ℕ → Fin n → ℝ} (h : ∀ t, u (t + 1) = P *ᵥ u t) : BoundedSeq u := by
  have e : ∀ t, u t = P ^ t *ᵥ u 0 := by
    intro t
    induction t with
    | zero => simp
    | succ t ih => rw [h t, ih, mulVec_mulVec, pow_succ']
  have lim : ∀ i, Tendsto (fun t => |u t i|) atTop (𝓝 |∑ j : Fin n, (0 : Matrix (Fin n) (Fin n) ℝ) i j * u 0 j|) := by
    intro i
    have : (fun t => |u t i|) = fun t => |∑ j, (P ^ t) i j * u 0 j| := by
      funext t
      rw [e t]
      rfl
    rw [this]
    refine Tendsto.abs (tendsto_finset_sum _ fun j _ => ?_)
    exact (((continuous_apply_apply i j).tendsto _).comp hP).mul_const _
  have hbd : ∀ i, ∃ B, ∀ t, |u t i| ≤ B := fun i => by
    obtain ⟨B, hB⟩ := (lim i).bddAbove_range
    exact ⟨B, fun t => hB ⟨t, rfl⟩⟩
  choose B hB using hbd
  refine ⟨∑ i, B i, fun t i => (hB i t).trans ?_⟩
  exact Finset.single_le_sum (f := B) (fun i _ => (abs_nonneg _).trans (hB i 0)) (Finset.mem_univ i)

/-! ### Paths in the coordinates of the decomposition -/

section
variable {ns nx : ℕ} {g_s : Matrix (Fin ns) (Fin ns) ℝ} {g_x : Matrix (Fin ns) (Fin nx) ℝ}
  {f_s : Matrix (Fin nx) (Fin ns) ℝ} {f_x : Matrix (Fin nx) (Fin nx) ℝ}
  {f_S : Matrix (Fin nx) (Fin ns) ℝ} {f_X : Matrix (Fin nx) (Fin nx) ℝ} {d : QZ (Fin ns ⊕ Fin nx) ℝ}

private theorem block_mulVec (M : Matrix (Fin ns ⊕ Fin nx) (Fin ns ⊕ Fin nx) ℝ) (w : Fin ns ⊕ Fin nx → ℝ) :
    (fun i => (M *ᵥ w) (.inl i)) = M.toBlocks₁₁ *ᵥ (fun i => w (.inl i)) + M.toBlocks₁₂ *ᵥ (fun j => w (.inr j)) ∧
    (fun i => (M *ᵥ w) (.inr i)) = M.toBlocks₂₁ *ᵥ (fun i => w (.inl i)) + M.toBlocks₂₂ *ᵥ (fun j => w (.inr j)) := by
  constructor <;> funext i <;> simp [Matrix.mulVec, dotProduct, Fintype.sum_sum_type, toBlocks₁₁, toBlocks₁₂, toBlocks₂₁, toBlocks₂₂]

/-- A path of the linearised model, in the coordinates of the decomposition. -/
private theorem path_coordinates (hd : d.Correct (pencilA f_S f_X) (pencilB g_s g_x f_s f_x)) {s : ℕ → Fin ns → ℝ}
    {x : ℕ → Fin nx → ℝ} (h : LinearPath g_s g_x f_s f_x f_S f_X s x) (t : ℕ) :
    d.S *ᵥ (d.Zᵀ *ᵥ Sum.elim (s (t + 1)) (x (t + 1))) = d.T *ᵥ (d.Zᵀ *ᵥ Sum.elim (s t) (x t)) := by
  have e : pencilA f_S f_X *ᵥ Sum.elim (s (t + 1)) (x (t + 1)) = pencilB g_s g_x f_s f_x *ᵥ Sum.elim (s t) (x t) := by
    rw [pencilA, pencilB, fromBlocks_mulVec, fromBlocks_mulVec]
    congr 1
    · simp only [one_mulVec, zero_mulVec, add_zero, Sum.elim_comp_inl, Sum.elim_comp_inr]
      exact h.1 t
    · simp only [neg_mulVec, Sum.elim_comp_inl, Sum.elim_comp_inr]
      have := h.2 t
      rw [← sub_eq_zero, ← neg_eq_zero]
      rw [← this]
      abel
  rw [hd.hA, hd.hB, ← mulVec_mulVec, ← mulVec_mulVec, ← mulVec_mulVec, ← mulVec_mulVec] at e
  have := congrArg (fun v => d.Qᵀ *ᵥ v) e
  simpa only [mulVec_mulVec, ← Matrix.mul_assoc, hd.hQ, Matrix.one_mul] using this

/-- The two facts about the diagonal blocks that matter. -/
private theorem saddle_core (hd : d.Correct (pencilA f_S f_X) (pencilB g_s g_x f_s f_x)) (hs : d.Split)
    (hback : ∀ w : ℕ → Fin nx → ℝ, BoundedSeq w → (∀ t, d.S.toBlocks₂₂ *ᵥ w (t + 1) = d.T.toBlocks₂₂ *ᵥ w t) → ∀ t, w t = 0)
    (hfwd : ∀ u : ℕ → Fin ns → ℝ, (∀ t, d.S.toBlocks₁₁ *ᵥ u (t + 1) = d.T.toBlocks₁₁ *ᵥ u t) → BoundedSeq u)
    {C : Matrix (Fin nx) (Fin ns) ℝ} (hZ : IsUnit d.Z.toBlocks₁₁.det) (hC : C * d.Z.toBlocks₁₁ = d.Z.toBlocks₂₁)
    (s : ℕ → Fin ns → ℝ) (x : ℕ → Fin nx → ℝ) :
    (LinearPath g_s g_x f_s f_x f_S f_X s x ∧ BoundedSeq s ∧ BoundedSeq x) ↔
      ∀ t, x t = C *ᵥ s t ∧ s (t + 1) = (g_s + g_x * C) *ᵥ s t := by
  constructor
  · rintro ⟨hp, ⟨b1, hb1⟩, b2, hb2⟩
    have hw := path_coordinates hd hp
    have hbv : BoundedSeq fun t => Sum.elim (s t) (x t) := by
      refine ⟨max b1 b2, fun t i => ?_⟩
      rcases i with i | i
      · exact (hb1 t i).trans (le_max_left _ _)
      · exact (hb2 t i).trans (le_max_right _ _)
    obtain ⟨b, hb⟩ := bounded_mulVec d.Zᵀ hbv
    have h2 : ∀ t, (fun j => (d.Zᵀ *ᵥ Sum.elim (s t) (x t)) (.inr j)) = 0 := by
      refine hback (fun t j => (d.Zᵀ *ᵥ Sum.elim (s t) (x t)) (.inr j)) ⟨b, fun t i => hb t _⟩ fun t => ?_
      have e1 := (block_mulVec d.S (d.Zᵀ *ᵥ Sum.elim (s (t + 1)) (x (t + 1)))).2
      have e2 := (block_mulVec d.T (d.Zᵀ *ᵥ Sum.elim (s t) (x t))).2
      rw [hs.hS, zero_mulVec, zero_add] at e1
      rw [hs.hT, zero_mulVec, zero_add] at e2
      rw [← e1, ← e2, hw t]
    have hZZ : d.Z * d.Zᵀ = 1 := mul_eq_one_comm.1 hd.hZ
    have hx : ∀ t, x t = C *ᵥ s t := by
      intro t
      have ev : d.Z *ᵥ (d.Zᵀ *ᵥ Sum.elim (s t) (x t)) = Sum.elim (s t) (x t) := by
        rw [mulVec_mulVec, hZZ, one_mulVec]
      obtain ⟨k1, k2⟩ := block_mulVec d.Z (d.Zᵀ *ᵥ Sum.elim (s t) (x t))
      rw [ev, h2 t, mulVec_zero, add_zero] at k1 k2
      simp only [Sum.elim_inl, Sum.elim_inr] at k1 k2
      have k1' : s t = d.Z.toBlocks₁₁ *ᵥ fun i => (d.Zᵀ *ᵥ Sum.elim (s t) (x t)) (.inl i) := k1
      have k2' : x t = d.Z.toBlocks₂₁ *ᵥ fun i => (d.Zᵀ *ᵥ Sum.elim (s t) (x t)) (.inl i) := k2
      conv_rhs => rw [k1']
      rw [mulVec_mulVec, hC, ← k2']
    refine fun t => ⟨hx t, ?_⟩
    rw [hp.1 t, hx t, add_mulVec, mulVec_mulVec]
  · intro h
    have hL := linear_solution_of_split hd hs hZ hC
    have hP := transition_eq hd hs hC
    have hbs : BoundedSeq s := by
      have hu : BoundedSeq fun t => d.Z.toBlocks₁₁⁻¹ *ᵥ s t := by
        refine hfwd _ fun t => ?_
        have e1 : s t = d.Z.toBlocks₁₁ *ᵥ (d.Z.toBlocks₁₁⁻¹ *ᵥ s t) := by
          rw [mulVec_mulVec, mul_nonsing_inv _ hZ, one_mulVec]
        rw [(h t).2]
        conv_lhs => rw [e1]
        rw [mulVec_mulVec (M := g_s + g_x * C), hP, mulVec_mulVec (M := d.Z.toBlocks₁₁⁻¹), ← Matrix.mul_assoc,
          nonsing_inv_mul _ hZ, Matrix.one_mul, mulVec_mulVec (M := d.S.toBlocks₁₁), ← Matrix.mul_assoc,
          mul_nonsing_inv _ hs.hS11, Matrix.one_mul]
      have := bounded_mulVec d.Z.toBlocks₁₁ hu
      simpa only [mulVec_mulVec, mul_nonsing_inv _ hZ, one_mulVec] using this
    refine ⟨⟨fun t => ?_, fun t => ?_⟩, hbs, ?_⟩
    · rw [(h t).2, (h t).1, add_mulVec, mulVec_mulVec]
    · rw [(h (t + 1)).1, (h t).1, (h t).2]
      have := congrArg (fun M => M *ᵥ s t) hL
      simpa only [add_mulVec, mulVec_add, zero_mulVec, mulVec_mulVec, Matrix.mul_assoc, Matrix.mul_add] using this
    · have := bounded_mulVec C hbs
      have e : (fun t => C *ᵥ s t) = x := funext fun t => ((h t).1).symm
      rwa [e] at this

/-- **C137.**  When `ordqz` returns a triangular decomposition (real eigenvalues) and the numbers reported satisfy the
conditions of Blanchard and Kahn (above one for as many as there are states, below one for the others), the solution `C`
returned is the saddle path: a path of the linearised model is bounded exactly if the controls follow `x = C s` at all
dates.  There is no other bounded path from any state. -/
theorem C137_saddle_path {solve : MatSolver ℝ} (hsolve : solve.Correct)
    {qz : Matrix (Fin ns ⊕ Fin nx) (Fin ns ⊕ Fin nx) ℝ → Matrix (Fin ns ⊕ Fin nx) (Fin ns ⊕ Fin nx) ℝ → ℝ →
      QZ (Fin ns ⊕ Fin nx) ℝ}
    (hqz : (qz (pencilA f_S f_X) (pencilB g_s g_x f_s f_x) (1 - 1 / 10 ^ 8)).Correct
      (pencilA f_S f_X) (pencilB g_s g_x f_s f_x))
    (ht : (qz (pencilA f_S f_X) (pencilB g_s g_x f_s f_x) (1 - 1 / 10 ^ 8)).Triangular)
    (hst : ∀ i, 1 < genEig (qz (pencilA f_S f_X) (pencilB g_s g_x f_s f_x) (1 - 1 / 10 ^ 8)) (.inl i))
    (hun : ∀ j, genEig (qz (pencilA f_S f_X) (pencilB g_s g_x f_s f_x) (1 - 1 / 10 ^ 8)) (.inr j) < 1)
    (cut : WithTop ℝ → WithTop ℝ → ℝ) (r : FirstOrder ns nx ℝ)
    (h : approximate1stOrder solve qz cut g_s g_x f_s f_x f_S f_X = .ok r) (s : ℕ → Fin ns → ℝ) (x : ℕ → Fin nx → ℝ) :
    (LinearPath g_s g_x f_s f_x f_S f_X s x ∧ BoundedSeq s ∧ BoundedSeq x) ↔
      ∀ t, x t = r.C *ᵥ s t ∧ s (t + 1) = (g_s + g_x * r.C) *ᵥ s t := by
  obtain ⟨hok, -, h1, -, -⟩ := approximate_ok h
  generalize qz (pencilA f_S f_X) (pencilB g_s g_x f_s f_x) (1 - 1 / 10 ^ 8) = d at *
  obtain ⟨h2, h3⟩ := rule_eq hsolve h1
  have hS1 : ∀ i, |d.T (.inl i) (.inl i)| < |d.S (.inl i) (.inl i)| := by
    intro i
    have := hst i
    unfold genEig at this
    split_ifs at this with h0
    · rw [h0, abs_zero]
      exact abs_pos.2 fun e => diag_ne hok _ ⟨e, h0⟩
    · have h' := WithTop.coe_lt_coe.1 (show ((1 : ℝ) : WithTop ℝ) < _ from this)
      rwa [abs_div, one_lt_div (abs_pos.2 h0)] at h'
  have hS2 : ∀ j, |d.S (.inr j) (.inr j)| < |d.T (.inr j) (.inr j)| := by
    intro j
    have := hun j
    unfold genEig at this
    split_ifs at this with h0
    · exact absurd this (not_lt.2 le_top)
    · have h' := WithTop.coe_lt_coe.1 (show _ < ((1 : ℝ) : WithTop ℝ) from this)
      rwa [abs_div, div_lt_one (abs_pos.2 h0)] at h'
  have hsp : d.Split := by
    refine ⟨?_, ?_, ?_⟩
    · ext i j; simp [toBlocks₂₁, ht.S21]
    · ext i j; simp [toBlocks₂₁, ht.T21]
    · rw [tri_det _ (fun i j hij => by simp [toBlocks₁₁, ht.S11 i j hij]), isUnit_iff_ne_zero,
        Finset.prod_ne_zero_iff]
      intro i _ e
      have := hS1 i
      have e' : d.S (.inl i) (.inl i) = 0 := e
      rw [e', abs_zero] at this
      exact absurd (abs_nonneg _) (not_le.2 this)
  exact saddle_core hqz hsp
    (fun w hw hr => triangular_backward _ _ (fun i j hij => ht.S22 i j hij) (fun i j hij => ht.T22 i j hij) hS2 hw hr)
    (fun u hr => triangular_forward _ _ (fun i j hij => ht.S11 i j hij) (fun i j hij => ht.T11 i j hij) hS1 hr) h2 h3 s x

/-- **C137, complex eigenvalues.**  The same for any decomposition split between states and controls, such that the stable
block dies out forwards and the unstable one backwards. -/
theorem C137_saddle_path_blocks {solve : MatSolver ℝ} (hsolve : solve.Correct)
    {qz : Matrix (Fin ns ⊕ Fin nx) (Fin ns ⊕ Fin nx) ℝ → Matrix (Fin ns ⊕ Fin nx) (Fin ns ⊕ Fin nx) ℝ → ℝ →
      QZ (Fin ns ⊕ Fin nx) ℝ} {d : QZ (Fin ns ⊕ Fin nx) ℝ}
    (hq : qz (pencilA f_S f_X) (pencilB g_s g_x f_s f_x) (1 - 1 / 10 ^ 8) = d)
    (hqz : d.Correct (pencilA f_S f_X) (pencilB g_s g_x f_s f_x)) (hsp : d.Split) (hT22 : IsUnit d.T.toBlocks₂₂.det)
    (hst : Tendsto (fun k => (d.S.toBlocks₁₁⁻¹ * d.T.toBlocks₁₁) ^ k) atTop (𝓝 0))
    (hun : Tendsto (fun k => (d.T.toBlocks₂₂⁻¹ * d.S.toBlocks₂₂) ^ k) atTop (𝓝 0))
    (cut : WithTop ℝ → WithTop ℝ → ℝ) (r : FirstOrder ns nx ℝ)
    (h : approximate1stOrder solve qz cut g_s g_x f_s f_x f_S f_X = .ok r) (s : ℕ → Fin ns → ℝ) (x : ℕ → Fin nx → ℝ) :
    (LinearPath g_s g_x f_s f_x f_S f_X s x ∧ BoundedSeq s ∧ BoundedSeq x) ↔
      ∀ t, x t = r.C *ᵥ s t ∧ s (t + 1) = (g_s + g_x * r.C) *ᵥ s t := by
  obtain ⟨-, -, h1, -, -⟩ := approximate_ok h
  rw [hq] at h1
  obtain ⟨h2, h3⟩ := rule_eq hsolve h1
  refine saddle_core hqz hsp (fun w hw hr => powers_backward _ hun hw fun t => ?_)
    (fun u hr => powers_forward _ hst fun t => ?_) h2 h3 s x
  · rw [← mulVec_mulVec, hr t, mulVec_mulVec, nonsing_inv_mul _ hT22, one_mulVec]
  · rw [← mulVec_mulVec, ← hr t, mulVec_mulVec, nonsing_inv_mul _ hsp.hS11, one_mulVec]

end

/-! ### Consequences -/

/-- `C` is the saddle path of the linearised model. -/
def SaddlePath {ns nx : ℕ} (g_s : Matrix (Fin ns) (Fin ns) ℝ) (g_x : Matrix (Fin ns) (Fin nx) ℝ)
    (f_s : Matrix (Fin nx) (Fin ns) ℝ) (f_x : Matrix (Fin nx) (Fin nx) ℝ) (f_S : Matrix (Fin nx) (Fin ns) ℝ)
    (f_X : Matrix (Fin nx) (Fin nx) ℝ) (C : Matrix (Fin nx) (Fin ns) ℝ) : Prop :=
  ∀ s x, (LinearPath g_s g_x f_s f_x f_S f_X s x ∧ BoundedSeq s ∧ BoundedSeq x) ↔
    ∀ t, x t = C *ᵥ s t ∧ s (t + 1) = (g_s + g_x * C) *ᵥ s t

section
variable {ns nx : ℕ} {g_s : Matrix (Fin ns) (Fin ns) ℝ} {g_x : Matrix (Fin ns) (Fin nx) ℝ}
  {f_s : Matrix (Fin nx) (Fin ns) ℝ} {f_x : Matrix (Fin nx) (Fin nx) ℝ}
  {f_S : Matrix (Fin nx) (Fin ns) ℝ} {f_X : Matrix (Fin nx) (Fin nx) ℝ}

/-- The path from `s0` under the rule. -/
def rulePath (g_s : Matrix (Fin ns) (Fin ns) ℝ) (g_x : Matrix (Fin ns) (Fin nx) ℝ) (C : Matrix (Fin nx) (Fin ns) ℝ)
    (s0 : Fin ns → ℝ) : ℕ → Fin ns → ℝ
  | 0 => s0
  | t + 1 => (g_s + g_x * C) *ᵥ rulePath g_s g_x C s0 t

/-- **C137, the decomposition does not matter.**  There is at most one saddle path: two runs that return saddle paths, with
whatever decompositions (the Schur vectors are not unique), return the same matrix. -/
theorem C137_unique {C C' : Matrix (Fin nx) (Fin ns) ℝ} (h : SaddlePath g_s g_x f_s f_x f_S f_X C)
    (h' : SaddlePath g_s g_x f_s f_x f_S f_X C') : C' = C := by
  have key : ∀ s0, C' *ᵥ s0 = C *ᵥ s0 := by
    intro s0
    have h1 := (h' (rulePath g_s g_x C' s0) (fun t => C' *ᵥ rulePath g_s g_x C' s0 t)).2 fun t => ⟨rfl, rfl⟩
    exact ((h _ _).1 h1 0).1
  ext i j
  have := congrFun (key (Pi.single j 1)) i
  simpa using this

/-- **C137, other rules explode.**  Any other linear rule that satisfies the linearised equations gives an unbounded path
from some state. -/
theorem C137_others_explode {C C' : Matrix (Fin nx) (Fin ns) ℝ} (h : SaddlePath g_s g_x f_s f_x f_S f_X C)
    (h' : LinearSolution g_s g_x f_s f_x f_S f_X C') (hne : C' ≠ C) :
    ∃ s0, ¬ BoundedSeq (rulePath g_s g_x C' s0) := by
  by_contra hcon
  push Not at hcon
  apply hne
  have key : ∀ s0, C' *ᵥ s0 = C *ᵥ s0 := by
    intro s0
    refine ((h (rulePath g_s g_x C' s0) (fun t => C' *ᵥ rulePath g_s g_x C' s0 t)).1 ⟨⟨fun t => ?_, fun t => ?_⟩, hcon s0,
      bounded_mulVec C' (hcon s0)⟩ 0).1
    · rw [rulePath, add_mulVec, mulVec_mulVec]
    · have := congrArg (fun M => M *ᵥ rulePath g_s g_x C' s0 t) h'
      simpa only [rulePath, add_mulVec, mulVec_add, zero_mulVec, mulVec_mulVec, Matrix.mul_assoc, Matrix.mul_add] using this
  ext i j
  have := congrFun (key (Pi.single j 1)) i
  simpa using this

/-- **C137 and the order of declarations** (see C136).  With the states, the controls and the equations listed in other
orders, the saddle path is the reordered one. -/
theorem C137_relabel {C C' : Matrix (Fin nx) (Fin ns) ℝ} (eS : Fin ns ≃ Fin ns) (eX eF : Fin nx ≃ Fin nx)
    (h : SaddlePath g_s g_x f_s f_x f_S f_X C)
    (h' : SaddlePath (g_s.submatrix eS eS) (g_x.submatrix eS eX) (f_s.submatrix eF eS) (f_x.submatrix eF eX)
      (f_S.submatrix eF eS) (f_X.submatrix eF eX) C') : C' = C.submatrix eX eS := by
  have sub : ∀ {a b : ℕ} (M : Matrix (Fin a) (Fin b) ℝ) (e1 : Fin a ≃ Fin a) (e2 : Fin b ≃ Fin b) (v : Fin b → ℝ),
      M.submatrix e1 e2 *ᵥ (v ∘ e2) = (M *ᵥ v) ∘ e1 := by
    intro a b M e1 e2 v
    rw [submatrix_mulVec_equiv]
    congr 1
    congr 1
    funext i
    simp
  have inj : ∀ {a : ℕ} (e : Fin a ≃ Fin a) (u v : Fin a → ℝ), u ∘ e = v ∘ e ↔ u = v :=
    fun e u v => e.surjective.right_cancellable
  have bdd : ∀ {a : ℕ} (e : Fin a ≃ Fin a) (u : ℕ → Fin a → ℝ), BoundedSeq (fun t => u t ∘ e) ↔ BoundedSeq u := by
    intro a e u
    constructor
    · rintro ⟨b, hb⟩
      exact ⟨b, fun t i => by simpa using hb t (e.symm i)⟩
    · rintro ⟨b, hb⟩
      exact ⟨b, fun t i => hb t (e i)⟩
  have cadd : ∀ {a : ℕ} (e : Fin a ≃ Fin a) (u v : Fin a → ℝ), u ∘ e + v ∘ e = (u + v) ∘ e := fun _ _ _ => rfl
  have czero : ∀ {a : ℕ} (e : Fin a ≃ Fin a), (0 : Fin a → ℝ) = (0 : Fin a → ℝ) ∘ e := fun _ => rfl
  have main : ∀ (s : ℕ → Fin ns → ℝ) (x : ℕ → Fin nx → ℝ), (LinearPath (g_s.submatrix eS eS) (g_x.submatrix eS eX) (f_s.submatrix eF eS) (f_x.submatrix eF eX)
      (f_S.submatrix eF eS) (f_X.submatrix eF eX) (fun t => s t ∘ eS) (fun t => x t ∘ eX) ∧
      BoundedSeq (fun t => s t ∘ eS) ∧ BoundedSeq fun t => x t ∘ eX) ↔
      ∀ t, x t ∘ eX = C.submatrix eX eS *ᵥ (s t ∘ eS) ∧
        s (t + 1) ∘ eS = (g_s.submatrix eS eS + g_x.submatrix eS eX * C.submatrix eX eS) *ᵥ (s t ∘ eS) := by
    intro s x
    have e1 : LinearPath (g_s.submatrix eS eS) (g_x.submatrix eS eX) (f_s.submatrix eF eS) (f_x.submatrix eF eX)
        (f_S.submatrix eF eS) (f_X.submatrix eF eX) (fun t => s t ∘ eS) (fun t => x t ∘ eX) ↔
        LinearPath g_s g_x f_s f_x f_S f_X s x := by
      unfold LinearPath
      simp only [sub, cadd, inj]
      constructor
      · rintro ⟨k1, k2⟩
        refine ⟨k1, fun t => ?_⟩
        have := k2 t
        rw [czero eF, inj] at this
        exact this
      · rintro ⟨k1, k2⟩
        refine ⟨k1, fun t => ?_⟩
        rw [k2 t]
        rfl
    have e2 : g_s.submatrix eS eS + g_x.submatrix eS eX * C.submatrix eX eS = (g_s + g_x * C).submatrix eS eS := by
      rw [submatrix_mul_equiv]
      rfl
    rw [e1, bdd, bdd, h s x]
    simp only [e2, sub, inj]
  refine C137_unique (fun s' x' => ?_) h'
  have := main (fun t => s' t ∘ eS.symm) (fun t => x' t ∘ eX.symm)
  simpa [Function.comp_assoc] using this

end

/-! ### A model meeting the hypotheses -/

section instances

/-- A rotation. -/
noncomputable def rotS : Matrix (Fin 1 ⊕ Fin 1) (Fin 1 ⊕ Fin 1) ℝ :=
  fromBlocks (.of fun _ _ => 3 / 5) (.of fun _ _ => -4 / 5) (.of fun _ _ => 4 / 5) (.of fun _ _ => 3 / 5)

/-- What `ordqz` returns for `s_{t+1} = s_t / 2` (a dividend) and `2 x_t = 2 s_t + x_{t+1}` (its price). -/
noncomputable def dS : QZ (Fin 1 ⊕ Fin 1) ℝ :=
  ⟨1, fromBlocks (.of fun _ _ => 1 / 2) (.of fun _ _ => 2) 0 (.of fun _ _ => 2), rotS, rotS⟩

private theorem rotS_orth : rotSᵀ * rotS = 1 ∧ rotS * rotSᵀ = 1 := by
  constructor <;>
  · ext i j
    rcases i with i | i <;> rcases j with j | j <;> fin_cases i <;> fin_cases j <;>
      simp [rotS, Matrix.mul_apply] <;> norm_num

theorem dS_correct : dS.Correct (pencilA (0 : Matrix (Fin 1) (Fin 1) ℝ) (.of fun _ _ => -1))
    (pencilB (.of fun _ _ => 1 / 2) (0 : Matrix (Fin 1) (Fin 1) ℝ) (.of fun _ _ => -2) (.of fun _ _ => 2)) := by
  refine ⟨?_, ?_, rotS_orth.1, rotS_orth.1⟩
  · have : pencilA (0 : Matrix (Fin 1) (Fin 1) ℝ) (.of fun _ _ => -1) = 1 := by
      ext i j
      rcases i with i | i <;> rcases j with j | j <;> fin_cases i <;> fin_cases j <;> simp [pencilA]
    rw [this]
    change 1 = rotS * 1 * rotSᵀ
    rw [Matrix.mul_one, rotS_orth.2]
  · ext i j
    rcases i with i | i <;> rcases j with j | j <;> fin_cases i <;> fin_cases j <;>
      simp [dS, rotS, pencilB, Matrix.mul_apply] <;> norm_num

theorem dS_triangular : dS.Triangular := by
  constructor <;> intros <;> simp_all [dS, Subsingleton.elim (_ : Fin 1) 0]

theorem dS_eig : genEig dS (.inl 0) = ((2 : ℝ) : WithTop ℝ) ∧ genEig dS (.inr 0) = ((1 / 2 : ℝ) : WithTop ℝ) := by
  constructor <;> simp [genEig, dS]

theorem approxS : ∃ r, approximate1stOrder solverR (fun _ _ _ => dS) (fun _ _ => 0) (.of fun _ _ => 1 / 2)
    (0 : Matrix (Fin 1) (Fin 1) ℝ) (.of fun _ _ => -2) (.of fun _ _ => 2) 0 (.of fun _ _ => -1) = .ok r ∧
    r.C = .of fun _ _ => 4 / 3 := by
  have h1 : diagOk dS = true := by
    simp [diagOk, dS]
    norm_num
  have h2 : bkTest dS = .ok true := by
    have h3 : (1 : WithTop ℝ) ≤ ((2 : ℝ) : WithTop ℝ) := by exact_mod_cast (by norm_num : (1 : ℝ) ≤ 2)
    have h4 : ((1 / 2 : ℝ) : WithTop ℝ) < 1 := by exact_mod_cast (by norm_num : (1 / 2 : ℝ) < 1)
    unfold bkTest
    rw [take_eigList, drop_eigList]
    simp only [List.ofFn_succ, List.ofFn_zero, dS_eig.1, dS_eig.2, pyMax, pyMin, List.foldl_nil, Bind.bind, Except.bind, h3,
      if_true, pure, Except.pure, h4, decide_true]
  have h3 : ruleFromQZ solverR dS = .ok (.of fun _ _ => 4 / 3) := by
    unfold ruleFromQZ
    have hdet : IsUnit (dS.Z.toBlocks₁₁)ᵀ.det := by
      rw [Matrix.det_fin_one]; simp [dS, rotS]
    simp only [solverR, if_pos hdet, Bind.bind, Except.bind, pure, Except.pure, Except.ok.injEq]
    have : (dS.Z.toBlocks₁₁)ᵀ⁻¹ * (dS.Z.toBlocks₂₁)ᵀ = .of fun _ _ => 4 / 3 := by
      have e : (dS.Z.toBlocks₂₁)ᵀ = (dS.Z.toBlocks₁₁)ᵀ * (.of fun _ _ => 4 / 3 : Matrix (Fin 1) (Fin 1) ℝ) := by
        ext i j; fin_cases i; fin_cases j
        simp [dS, rotS, Matrix.mul_apply]
      rw [e, ← Matrix.mul_assoc, Matrix.nonsing_inv_mul _ hdet, Matrix.one_mul]
    rw [this]
    rfl
  unfold approximate1stOrder selectRule
  simp only [h1, h2, h3, Bind.bind, Except.bind, pure, Except.pure]
  exact ⟨_, rfl, rfl⟩

theorem saddleS : SaddlePath (.of fun _ _ => 1 / 2) (0 : Matrix (Fin 1) (Fin 1) ℝ) (.of fun _ _ => -2)
    (.of fun _ _ => 2) (0 : Matrix (Fin 1) (Fin 1) ℝ) (.of fun _ _ => -1) (.of fun _ _ => 4 / 3) := by
  obtain ⟨r, h, hC⟩ := approxS
  intro s x
  rw [← hC]
  refine C137_saddle_path solverR_correct (qz := fun _ _ _ => dS) dS_correct dS_triangular (fun i => ?_) (fun j => ?_) _ r h s x
  · rw [Subsingleton.elim i 0, dS_eig.1]
    exact_mod_cast (by norm_num : (1 : ℝ) < 2)
  · rw [Subsingleton.elim j 0, dS_eig.2]
    exact_mod_cast (by norm_num : (1 / 2 : ℝ) < 1)

/-- The price is 4/3 of the dividend on the saddle path, and the bubbles explode: a path which begins elsewhere is unbounded. -/
example (s x : ℕ → Fin 1 → ℝ) (h : LinearPath (.of fun _ _ => 1 / 2) (0 : Matrix (Fin 1) (Fin 1) ℝ) (.of fun _ _ => -2)
    (.of fun _ _ => 2) (0 : Matrix (Fin 1) (Fin 1) ℝ) (.of fun _ _ => -1) s x) (hs : BoundedSeq s)
    (h0 : x 0 0 ≠ 4 / 3 * s 0 0) : ¬ BoundedSeq x := by
  intro hx
  have := congrFun (((saddleS s x).1 ⟨h, hs, hx⟩ 0).1) 0
  apply h0
  simpa [Matrix.mulVec, dotProduct] using this

/-- `C137_saddle_path_blocks`: the hypotheses hold for the same model. -/
example : dS.Split ∧ IsUnit dS.T.toBlocks₂₂.det ∧
    Tendsto (fun k => (dS.S.toBlocks₁₁⁻¹ * dS.T.toBlocks₁₁) ^ k) atTop (𝓝 0) ∧
    Tendsto (fun k => (dS.T.toBlocks₂₂⁻¹ * dS.S.toBlocks₂₂) ^ k) atTop (𝓝 0) := by
  have e0 : (1 : Matrix (Fin 1 ⊕ Fin 1) (Fin 1 ⊕ Fin 1) ℝ).toBlocks₁₁ = 1 := by
    ext i j; fin_cases i; fin_cases j; simp [toBlocks₁₁]
  have e0' : (1 : Matrix (Fin 1 ⊕ Fin 1) (Fin 1 ⊕ Fin 1) ℝ).toBlocks₂₂ = 1 := by
    ext i j; fin_cases i; fin_cases j; simp [toBlocks₂₂]
  have half : Tendsto (fun k => (diagonal (fun _ => 1 / 2) : Matrix (Fin 1) (Fin 1) ℝ) ^ k) atTop (𝓝 0) := by
    have h1 : Tendsto (fun k => ((1 : ℝ) / 2) ^ k) atTop (𝓝 0) :=
      tendsto_pow_atTop_nhds_zero_of_lt_one (by norm_num) (by norm_num)
    simp only [diagonal_pow]
    refine tendsto_pi_nhds.2 fun i => tendsto_pi_nhds.2 fun j => ?_
    fin_cases i; fin_cases j
    simpa using h1
  have e1 : dS.S.toBlocks₁₁⁻¹ * dS.T.toBlocks₁₁ = diagonal fun _ => 1 / 2 := by
    change (1 : Matrix (Fin 1 ⊕ Fin 1) (Fin 1 ⊕ Fin 1) ℝ).toBlocks₁₁⁻¹ * _ = _
    rw [e0, inv_one, Matrix.one_mul]
    ext i j; fin_cases i; fin_cases j; simp [dS]
  have hu : IsUnit dS.T.toBlocks₂₂.det := by
    rw [Matrix.det_fin_one]; simp [dS]
  have e2 : dS.T.toBlocks₂₂⁻¹ * dS.S.toBlocks₂₂ = diagonal fun _ => 1 / 2 := by
    change _ * (1 : Matrix (Fin 1 ⊕ Fin 1) (Fin 1 ⊕ Fin 1) ℝ).toBlocks₂₂ = _
    rw [e0', Matrix.mul_one]
    refine inv_eq_right_inv ?_
    ext i j; fin_cases i; fin_cases j; simp [dS, Matrix.mul_apply]
  refine ⟨⟨?_, ?_, ?_⟩, hu, ?_, ?_⟩
  · ext i j; simp [dS, toBlocks₂₁]
  · ext i j; simp [dS, toBlocks₂₁]
  · change IsUnit (1 : Matrix (Fin 1 ⊕ Fin 1) (Fin 1 ⊕ Fin 1) ℝ).toBlocks₁₁.det
    rw [e0, det_one]; exact isUnit_one
  · rw [e1]; exact half
  · rw [e2]; exact half

/-- `C137_others_explode`: with `s_{t+1} = x_t` and `x_{t+1} = 5/2 x_t - s_t`
the rules `x = s / 2` and `x = 2 s` both satisfy the equations, and the paths of the second one explode. -/
example : LinearSolution (nx := 1) (0 : Matrix (Fin 1) (Fin 1) ℝ) (.of fun _ _ => 1) (.of fun _ _ => 1) (.of fun _ _ => -5 / 2) 0
      (.of fun _ _ => 1) (.of fun _ _ => 1 / 2) ∧
    LinearSolution (nx := 1) (0 : Matrix (Fin 1) (Fin 1) ℝ) (.of fun _ _ => 1) (.of fun _ _ => 1) (.of fun _ _ => -5 / 2) 0
      (.of fun _ _ => 1) (.of fun _ _ => 2) := by
  constructor <;>
  · unfold LinearSolution
    ext i j
    fin_cases i; fin_cases j
    simp [Matrix.mul_apply]
    norm_num

end instances

end Dolo
