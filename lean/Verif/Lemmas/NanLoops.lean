import Mathlib.Tactic.Linarith
import Mathlib.Tactic.Tauto
import Mathlib.Data.List.OfFn
import Verif.Model.NanLoops

/-! # Lemmas on floats with infinities and `nan`, and on the maximum of an array of them -/

namespace Dolo

theorem XF.nan_lt (t : XF) : ¬ XF.nan.lt t := by cases t <;> simp [XF.lt, XF.gt]

theorem XF.lt_nan (t : XF) : ¬ t.lt .nan := by cases t <;> simp [XF.lt, XF.gt]

theorem XF.pinf_lt (t : XF) : ¬ XF.pinf.lt t := by cases t <;> simp [XF.lt, XF.gt]

theorem XF.npMax2_lt (a b t : XF) : (a.npMax2 b).lt t ↔ a.lt t ∧ b.lt t := by
  unfold XF.npMax2
  by_cases ha : a = .nan
  · subst ha; simp [XF.nan_lt]
  · by_cases hb : b = .nan
    · subst hb; simp [ha, XF.nan_lt]
    · rw [if_neg ha, if_neg hb]
      split
      · next h =>
        cases a <;> cases b <;> cases t <;> simp_all [XF.lt, XF.gt] <;> intros <;> linarith
      · next h =>
        cases a <;> cases b <;> cases t <;> simp_all [XF.lt, XF.gt] <;> intros <;> linarith

theorem XF.npMax2_nan (a b : XF) : a.npMax2 b = .nan ↔ a = .nan ∨ b = .nan := by
  unfold XF.npMax2
  by_cases ha : a = .nan
  · simp [ha]
  · by_cases hb : b = .nan
    · simp [hb, ha]
    · rw [if_neg ha, if_neg hb]
      split <;> simp [ha, hb]

theorem npMax_lt (t : XF) (l : List XF) : ∀ a, (npMax a l).lt t ↔ a.lt t ∧ ∀ b ∈ l, b.lt t := by
  induction l with
  | nil => intro a; simp [npMax]
  | cons b l ih =>
    intro a
    have := ih (a.npMax2 b)
    unfold npMax at this ⊢
    rw [List.foldl_cons, this, XF.npMax2_lt]
    simp only [List.mem_cons, forall_eq_or_imp]
    tauto

theorem npMax_nan (l : List XF) : ∀ a, npMax a l = .nan ↔ a = .nan ∨ XF.nan ∈ l := by
  induction l with
  | nil => intro a; simp [npMax]
  | cons b l ih =>
    intro a
    have := ih (a.npMax2 b)
    unfold npMax at this ⊢
    rw [List.foldl_cons, this, XF.npMax2_nan]
    simp only [List.mem_cons, eq_comm (a := XF.nan) (b := b)]
    tauto

theorem absMaxF_lt {n : ℕ} (v : FArr n) (t : XF) : (absMaxF v).lt t ↔ ∀ i, (v i).abs.lt t := by
  unfold absMaxF
  rw [npMax_lt, Fin.forall_fin_succ]
  simp [List.mem_ofFn]

theorem XF.abs_nan (a : XF) : a.abs = .nan ↔ a = .nan := by cases a <;> simp [XF.abs]

theorem absMaxF_nan {n : ℕ} (v : FArr n) : absMaxF v = .nan ↔ ∃ i, v i = .nan := by
  unfold absMaxF
  rw [npMax_nan, Fin.exists_fin_succ, XF.abs_nan]
  simp [List.mem_ofFn, XF.abs_nan]

theorem XF.abs_lt (a t : XF) : a.abs.lt t ↔ ∃ x : ℝ, a = .fin x ∧ (XF.fin |x|).lt t := by
  cases a <;> simp [XF.abs, XF.nan_lt, XF.pinf_lt]

theorem XF.sub_fin (a b : XF) (z : ℝ) : a.sub b = .fin z ↔ ∃ x y : ℝ, a = .fin x ∧ b = .fin y ∧ x - y = z := by
  cases a <;> cases b <;> simp [XF.sub]

theorem XF.sub_nan {a b : XF} (h : a = .nan ∨ b = .nan) : a.sub b = .nan := by
  rcases h with rfl | rfl
  · simp [XF.sub]
  · cases a <;> simp [XF.sub]

theorem distF_lt {n : ℕ} (x y : FArr n) (t : XF) :
    (distF x y).lt t ↔ ∀ i, ∃ a b : ℝ, x i = .fin a ∧ y i = .fin b ∧ (XF.fin |a - b|).lt t := by
  unfold distF
  rw [absMaxF_lt]
  refine forall_congr' fun i => ?_
  rw [XF.abs_lt]
  constructor
  · rintro ⟨z, hz, h⟩
    obtain ⟨a, b, ha, hb, rfl⟩ := (XF.sub_fin _ _ _).1 hz
    exact ⟨a, b, ha, hb, h⟩
  · rintro ⟨a, b, ha, hb, h⟩
    exact ⟨a - b, (XF.sub_fin _ _ _).2 ⟨a, b, ha, hb, rfl⟩, h⟩

theorem distF_nan {n : ℕ} {x y : FArr n} (h : ∃ i, x i = .nan ∨ y i = .nan) : distF x y = .nan := by
  unfold distF
  rw [absMaxF_nan]
  exact h.imp fun i hi => XF.sub_nan hi

/-- A maximum of absolute values is not negative. -/
theorem absMaxF_cases {n : ℕ} (v : FArr n) : absMaxF v = .nan ∨ absMaxF v = .pinf ∨ ∃ r : ℝ, 0 ≤ r ∧ absMaxF v = .fin r := by
  have key : ∀ (l : List XF) (a : XF), (∀ b ∈ a :: l, b = .nan ∨ b = .pinf ∨ ∃ r : ℝ, 0 ≤ r ∧ b = .fin r) →
      npMax a l = .nan ∨ npMax a l = .pinf ∨ ∃ r : ℝ, 0 ≤ r ∧ npMax a l = .fin r := by
    intro l
    induction l with
    | nil => intro a h; exact h a (by simp)
    | cons b l ih =>
      intro a h
      unfold npMax at ih ⊢
      rw [List.foldl_cons]
      refine ih _ ?_
      intro c hc
      rw [List.mem_cons] at hc
      rcases hc with rfl | hc
      · unfold XF.npMax2
        split
        · exact .inl rfl
        · split
          · exact .inl rfl
          · split
            · exact h b (by simp)
            · exact h a (by simp)
      · exact h c (by simp [hc])
  refine key _ _ ?_
  intro b hb
  have hab : ∀ a : XF, a.abs = .nan ∨ a.abs = .pinf ∨ ∃ r : ℝ, 0 ≤ r ∧ a.abs = .fin r := by
    intro a
    cases a with
    | nan => exact .inl rfl
    | ninf => exact .inr (.inl rfl)
    | pinf => exact .inr (.inl rfl)
    | fin x => exact .inr (.inr ⟨|x|, abs_nonneg x, rfl⟩)
  rw [List.mem_cons] at hb
  rcases hb with rfl | hb
  · exact hab _
  · obtain ⟨i, rfl⟩ := (List.mem_ofFn' _ _).1 hb
    exact hab _

/-- The sum of two such maxima is below a number only if both are. -/
theorem absMaxF_add_lt {n k : ℕ} (v : FArr n) (w : FArr k) (t : XF) (h : ((absMaxF v).add (absMaxF w)).lt t) :
    (absMaxF v).lt t ∧ (absMaxF w).lt t := by
  rcases absMaxF_cases v with hv | hv | ⟨a, ha, hv⟩ <;> rcases absMaxF_cases w with hw | hw | ⟨b, hb, hw⟩ <;>
    rw [hv, hw] at h ⊢ <;> cases t <;> simp_all [XF.add, XF.lt, XF.gt] <;> constructor <;> linarith

theorem XF.not_gt_of_lt {a b : XF} (h : a.lt b) : ¬ a.gt b := by
  cases a <;> cases b <;> simp_all [XF.lt, XF.gt]
  linarith

end Dolo
