import Mathlib.LinearAlgebra.Matrix.ToLinearEquiv
import Mathlib.LinearAlgebra.Matrix.NonsingularInverse
import Mathlib.Algebra.Order.BigOperators.Group.Finset
import Mathlib.Algebra.Order.BigOperators.Ring.Finset
import Mathlib.Algebra.BigOperators.Ring.Finset
import Mathlib.Algebra.BigOperators.Field
import Mathlib.Algebra.Order.Field.Basic
import Mathlib.Data.Fintype.Lattice
import Mathlib.Logic.Relation
import Mathlib.Tactic.Linarith
import Mathlib.Tactic.FieldSimp
import Mathlib.Tactic.Positivity
import Mathlib.Tactic.LinearCombination

/-!
# Finite Markov chains: reachability, invariant distributions, long-run frequencies

No definition of the model is used in this file.
-/

set_option linter.unusedSectionVars false

namespace Dolo

variable {K : Type} [Field K] [LinearOrder K] [IsStrictOrderedRing K]
variable {ι : Type} [Fintype ι] [DecidableEq ι]

/-- State `j` can be reached from state `i`: there is a path of transitions of positive probability. -/
def Reaches (P : ι → ι → K) : ι → ι → Prop := Relation.ReflTransGen fun i j => 0 < P i j

/-- The distribution `t` periods later, when the current one is `nu`. -/
def evolve (P : ι → ι → K) (nu : ι → K) : ℕ → ι → K
  | 0 => nu
  | t + 1 => fun j => ∑ i, evolve P nu t i * P i j

/-- The absolute value of an invariant vector is invariant. -/
theorem abs_invariant (P : ι → ι → K) (hP : ∀ i, ∑ j, P i j = 1) (hpos : ∀ i j, 0 ≤ P i j) (mu : ι → K)
    (hinv : ∀ j, ∑ i, mu i * P i j = mu j) (j : ι) : ∑ i, |mu i| * P i j = |mu j| := by
  have hle : ∀ j, |mu j| ≤ ∑ i, |mu i| * P i j := by
    intro j
    rw [← hinv j]
    refine (Finset.abs_sum_le_sum_abs _ _).trans (le_of_eq ?_)
    apply Finset.sum_congr rfl
    intro i _
    rw [abs_mul, abs_of_nonneg (hpos i j)]
  have htot : ∑ j, (∑ i, |mu i| * P i j) = ∑ j, |mu j| := by
    rw [Finset.sum_comm]
    simp only [← Finset.mul_sum, hP, mul_one]
  have h0 : ∑ j, ((∑ i, |mu i| * P i j) - |mu j|) = 0 := by
    rw [Finset.sum_sub_distrib, htot, sub_self]
  have h1 := (Finset.sum_eq_zero_iff_of_nonneg (fun j _ => sub_nonneg.2 (hle j))).1 h0 j
    (Finset.mem_univ _)
  linarith

/-- Mass spreads along the transitions of an invariant measure. -/
theorem mass_reaches (P : ι → ι → K) (hpos : ∀ i j, 0 ≤ P i j) (mu : ι → K) (h0 : ∀ i, 0 ≤ mu i)
    (hinv : ∀ j, ∑ i, mu i * P i j = mu j) (i j : ι) (hi : 0 < mu i) (h : Reaches P i j) : 0 < mu j := by
  induction h with
  | refl => exact hi
  | tail _ hbc ih =>
    rename_i b c _
    rw [← hinv c]
    have h1 : mu b * P b c ≤ ∑ i, mu i * P i c :=
      Finset.single_le_sum (f := fun i => mu i * P i c) (fun i _ => mul_nonneg (h0 i) (hpos i c))
        (Finset.mem_univ b)
    have h2 : 0 < mu b * P b c := mul_pos ih hbc
    linarith

/-- If some state is reached from every state, an invariant vector with zero mass is null. -/
theorem kernel_trivial (P : ι → ι → K) (hP : ∀ i, ∑ j, P i j = 1) (hpos : ∀ i j, 0 ≤ P i j) (j0 : ι)
    (hr : ∀ i, Reaches P i j0) (v : ι → K) (hinv : ∀ j, ∑ i, v i * P i j = v j) (hs : ∑ i, v i = 0) :
    ∀ j, v j = 0 := by
  have habs := abs_invariant P hP hpos v hinv
  have hp : ∀ j, ∑ i, (|v i| + v i) * P i j = |v j| + v j := by
    intro j
    simp only [add_mul, Finset.sum_add_distrib, habs, hinv]
  have hn : ∀ j, ∑ i, (|v i| - v i) * P i j = |v j| - v j := by
    intro j
    simp only [sub_mul, Finset.sum_sub_distrib, habs, hinv]
  have p0 : ∀ i, 0 ≤ |v i| + v i := fun i => by linarith [neg_abs_le (v i)]
  have n0 : ∀ i, 0 ≤ |v i| - v i := fun i => by linarith [le_abs_self (v i)]
  by_contra hne
  push Not at hne
  obtain ⟨k, hk⟩ := hne
  have habspos : 0 < ∑ i, |v i| :=
    Finset.sum_pos' (fun i _ => abs_nonneg _) ⟨k, Finset.mem_univ _, abs_pos.2 hk⟩
  have e1 : 0 < ∑ i, (|v i| + v i) := by rw [Finset.sum_add_distrib, hs, add_zero]; exact habspos
  have e2 : 0 < ∑ i, (|v i| - v i) := by rw [Finset.sum_sub_distrib, hs, sub_zero]; exact habspos
  obtain ⟨a, -, ha⟩ := Finset.exists_lt_of_sum_lt (s := Finset.univ) (f := fun _ : ι => (0 : K))
    (g := fun i => |v i| + v i) (by rw [Finset.sum_const_zero]; exact e1)
  obtain ⟨b, -, hb⟩ := Finset.exists_lt_of_sum_lt (s := Finset.univ) (f := fun _ : ι => (0 : K))
    (g := fun i => |v i| - v i) (by rw [Finset.sum_const_zero]; exact e2)
  have q1 := mass_reaches P hpos _ p0 hp a j0 ha (hr a)
  have q2 := mass_reaches P hpos _ n0 hn b j0 hb (hr b)
  rcases le_total 0 (v j0) with h | h
  · rw [abs_of_nonneg h] at q2
    linarith
  · rw [abs_of_nonpos h] at q1
    linarith

/-- Every stochastic matrix has an invariant distribution. -/
theorem exists_invariant [Nonempty ι] (P : ι → ι → K) (hP : ∀ i, ∑ j, P i j = 1) (hpos : ∀ i j, 0 ≤ P i j) :
    ∃ mu : ι → K, (∀ i, 0 ≤ mu i) ∧ ∑ i, mu i = 1 ∧ ∀ j, ∑ i, mu i * P i j = mu j := by
  have h1 : ∃ v : ι → K, v ≠ 0 ∧ Matrix.mulVec (Matrix.of P - 1) v = 0 := by
    refine ⟨fun _ => 1, ?_, ?_⟩
    · intro h
      obtain ⟨i⟩ := (inferInstance : Nonempty ι)
      simpa using congrFun h i
    · rw [Matrix.sub_mulVec, Matrix.one_mulVec]
      funext i
      simp [Matrix.mulVec, dotProduct, hP]
  rw [Matrix.exists_mulVec_eq_zero_iff, ← Matrix.exists_vecMul_eq_zero_iff] at h1
  obtain ⟨v, hv0, hv⟩ := h1
  have hinv : ∀ j, ∑ i, v i * P i j = v j := by
    intro j
    have := congrFun hv j
    rw [Matrix.vecMul_sub, Matrix.vecMul_one] at this
    simp only [Matrix.vecMul, dotProduct, Matrix.of_apply, Pi.sub_apply, Pi.zero_apply] at this
    linarith
  have habs := abs_invariant P hP hpos v hinv
  obtain ⟨k, hk⟩ := Function.ne_iff.1 hv0
  have hc : 0 < ∑ i, |v i| :=
    Finset.sum_pos' (fun i _ => abs_nonneg _) ⟨k, Finset.mem_univ _, abs_pos.2 hk⟩
  refine ⟨fun i => |v i| / ∑ i, |v i|, fun i => by positivity, ?_, ?_⟩
  · rw [← Finset.sum_div, div_self hc.ne']
  · intro j
    dsimp only
    rw [← habs j, Finset.sum_div]
    apply Finset.sum_congr rfl
    intro i _
    ring

/-- There is an invariant distribution among the states reached from `a`. -/
theorem exists_invariant_reached (P : ι → ι → K) (hP : ∀ i, ∑ j, P i j = 1) (hpos : ∀ i j, 0 ≤ P i j) (a : ι) :
    ∃ mu : ι → K, (∀ i, 0 ≤ mu i) ∧ ∑ i, mu i = 1 ∧ (∀ j, ∑ i, mu i * P i j = mu j) ∧
      ∀ i, mu i ≠ 0 → Reaches P a i := by
  classical
  have hcl : ∀ i j, Reaches P a i → ¬ Reaches P a j → P i j = 0 := by
    intro i j hi hj
    by_contra hne
    exact hj (Relation.ReflTransGen.tail hi (lt_of_le_of_ne (hpos i j) (Ne.symm hne)))
  have : Nonempty {i // Reaches P a i} := ⟨⟨a, Relation.ReflTransGen.refl⟩⟩
  have hsum : ∀ f : ι → K, (∀ i, ¬ Reaches P a i → f i = 0) → ∑ i : {i // Reaches P a i}, f i.1 = ∑ i, f i := by
    intro f hf
    rw [← Finset.sum_filter_add_sum_filter_not Finset.univ (fun i => Reaches P a i) f,
      Finset.sum_eq_zero (s := Finset.univ.filter fun i => ¬ Reaches P a i), add_zero]
    · exact (Finset.sum_subtype _ (fun i => by simp) f).symm
    · intro i hi
      exact hf i (Finset.mem_filter.1 hi).2
  obtain ⟨mu, h0, h1, h2⟩ := exists_invariant (ι := {i // Reaches P a i}) (fun i j => P i.1 j.1) (by
    intro i
    rw [hsum (fun j => P i.1 j) (fun j hj => hcl _ _ i.2 hj), hP]) (fun i j => hpos _ _)
  have hmu : ∀ i : {i // Reaches P a i}, (if h : Reaches P a i.1 then mu ⟨i.1, h⟩ else 0) = mu i := by
    intro i
    rw [dif_pos i.2]
  refine ⟨fun i => if h : Reaches P a i then mu ⟨i, h⟩ else 0, ?_, ?_, ?_, ?_⟩
  · intro i
    dsimp only
    split_ifs
    · exact h0 _
    · exact le_rfl
  · rw [← hsum _ (fun i hi => dif_neg hi)]
    simp only [hmu, h1]
  · intro j
    rw [← hsum _ (fun i hi => by dsimp only; rw [dif_neg hi, zero_mul])]
    simp only [hmu]
    by_cases hj : Reaches P a j
    · rw [dif_pos hj]
      exact h2 ⟨j, hj⟩
    · rw [dif_neg hj]
      exact Finset.sum_eq_zero fun i _ => by rw [hcl i.1 j i.2 hj, mul_zero]
  · intro i hi
    by_contra h
    exact hi (dif_neg h)

/-- If no state is reached from every state, there are two different invariant distributions. -/
theorem two_invariant [Nonempty ι] (P : ι → ι → K) (hP : ∀ i, ∑ j, P i j = 1) (hpos : ∀ i j, 0 ≤ P i j)
    (h : ¬ ∃ j, ∀ i, Reaches P i j) :
    ∃ v : ι → K, v ≠ 0 ∧ ∑ i, v i = 0 ∧ ∀ j, ∑ i, v i * P i j = v j := by
  classical
  obtain ⟨a, ha⟩ := Finite.exists_min (fun i => (Finset.univ.filter fun j => Reaches P i j).card)
  push Not at h
  obtain ⟨b, hb⟩ := h a
  have hdis : ∀ l, Reaches P a l → ¬ Reaches P b l := by
    intro l hal hbl
    have hsub : (Finset.univ.filter fun j => Reaches P l j) ⊆ Finset.univ.filter fun j => Reaches P a j := by
      intro j hj
      rw [Finset.mem_filter] at hj ⊢
      exact ⟨hj.1, hal.trans hj.2⟩
    have heq := Finset.eq_of_subset_of_card_le hsub (ha l)
    have : a ∈ Finset.univ.filter fun j => Reaches P l j := by
      rw [heq]
      exact Finset.mem_filter.2 ⟨Finset.mem_univ _, Relation.ReflTransGen.refl⟩
    exact hb (hbl.trans (Finset.mem_filter.1 this).2)
  obtain ⟨mu, m0, m1, m2, m3⟩ := exists_invariant_reached P hP hpos a
  obtain ⟨nu, n0, n1, n2, n3⟩ := exists_invariant_reached P hP hpos b
  refine ⟨fun i => mu i - nu i, ?_, ?_, ?_⟩
  · intro hz
    have hall : ∀ i, mu i = 0 := by
      intro i
      by_contra hi
      have h1 := congrFun hz i
      simp only [Pi.zero_apply, sub_eq_zero] at h1
      exact hdis i (m3 i hi) (n3 i (by rwa [← h1]))
    simp [hall] at m1
  · rw [Finset.sum_sub_distrib, m1, n1, sub_self]
  · intro j
    simp only [sub_mul, Finset.sum_sub_distrib, m2, n2]

/-! ### Long run -/

theorem evolve_sum (P : ι → ι → K) (hP : ∀ i, ∑ j, P i j = 1) (nu : ι → K) (t : ℕ) :
    ∑ i, evolve P nu t i = ∑ i, nu i := by
  induction t with
  | zero => rfl
  | succ t ih =>
    simp only [evolve]
    rw [Finset.sum_comm]
    simp only [← Finset.mul_sum, hP, mul_one, ih]

theorem evolve_nonneg (P : ι → ι → K) (hpos : ∀ i j, 0 ≤ P i j) (nu : ι → K) (h : ∀ i, 0 ≤ nu i) (t : ℕ) :
    ∀ i, 0 ≤ evolve P nu t i := by
  induction t with
  | zero => exact h
  | succ t ih => exact fun j => Finset.sum_nonneg fun i _ => mul_nonneg (ih i) (hpos i j)

theorem evolve_le_one (P : ι → ι → K) (hP : ∀ i, ∑ j, P i j = 1) (hpos : ∀ i j, 0 ≤ P i j) (nu : ι → K)
    (h : ∀ i, 0 ≤ nu i) (h1 : ∑ i, nu i = 1) (t : ℕ) (i : ι) : evolve P nu t i ≤ 1 := by
  rw [← h1, ← evolve_sum P hP nu t]
  exact Finset.single_le_sum (fun i _ => evolve_nonneg P hpos nu h t i) (Finset.mem_univ i)

/-- The average distribution over the first `n` periods. -/
def average (P : ι → ι → K) (nu : ι → K) (n : ℕ) (i : ι) : K := (∑ t ∈ Finset.range n, evolve P nu t i) / n

theorem average_drift (P : ι → ι → K) (nu : ι → K) (n : ℕ) (j : ι) :
    ∑ i, average P nu n i * P i j - average P nu n j = (evolve P nu n j - nu j) / n := by
  have h : ∑ i, average P nu n i * P i j = (∑ t ∈ Finset.range n, evolve P nu (t + 1) j) / n := by
    simp only [average, evolve, div_mul_eq_mul_div, ← Finset.sum_div, Finset.sum_mul]
    rw [Finset.sum_comm]
  have h2 := Finset.sum_range_succ (fun t => evolve P nu t j) n
  rw [Finset.sum_range_succ' (fun t => evolve P nu t j)] at h2
  rw [h, average, ← sub_div]
  congr 1
  have h3 : evolve P nu 0 j = nu j := rfl
  rw [h3] at h2
  linarith

theorem average_sum (P : ι → ι → K) (hP : ∀ i, ∑ j, P i j = 1) (nu : ι → K) (h1 : ∑ i, nu i = 1) (n : ℕ)
    (hn : n ≠ 0) : ∑ i, average P nu n i = 1 := by
  simp only [average, ← Finset.sum_div]
  rw [Finset.sum_comm]
  simp only [evolve_sum P hP, h1, Finset.sum_const, Finset.card_range, nsmul_eq_mul, mul_one]
  exact div_self (Nat.cast_ne_zero.2 hn)

/-- A non-singular system bounds its solution by its right-hand side. -/
theorem system_bound (A : ι → ι → K) (h : ∀ v : ι → K, (∀ i, ∑ j, A i j * v j = 0) → ∀ j, v j = 0) :
    ∃ C, 0 ≤ C ∧ ∀ (v : ι → K) (b : K), (∀ i, |∑ j, A i j * v j| ≤ b) → ∀ j, |v j| ≤ C * b := by
  have hdet : (Matrix.of A).det ≠ 0 := by
    intro hd
    obtain ⟨v, hv0, hv⟩ := Matrix.exists_mulVec_eq_zero_iff.2 hd
    exact hv0 (funext fun j => h v (fun i => congrFun hv i) j)
  refine ⟨∑ i, ∑ j, |(Matrix.of A)⁻¹ i j|,
    Finset.sum_nonneg fun i _ => Finset.sum_nonneg fun j _ => abs_nonneg _, ?_⟩
  intro v b hb j
  have hv : v = Matrix.mulVec (Matrix.of A)⁻¹ (Matrix.mulVec (Matrix.of A) v) := by
    rw [Matrix.mulVec_mulVec, Matrix.nonsing_inv_mul _ (isUnit_iff_ne_zero.2 hdet), Matrix.one_mulVec]
  have hj : v j = ∑ k, (Matrix.of A)⁻¹ j k * ∑ l, A k l * v l := congrFun hv j
  have hb0 : 0 ≤ b := (abs_nonneg _).trans (hb j)
  rw [hj]
  calc |∑ k, (Matrix.of A)⁻¹ j k * ∑ l, A k l * v l|
      ≤ ∑ k, |(Matrix.of A)⁻¹ j k * ∑ l, A k l * v l| := Finset.abs_sum_le_sum_abs _ _
    _ ≤ ∑ k, |(Matrix.of A)⁻¹ j k| * b := by
        apply Finset.sum_le_sum
        intro k _
        rw [abs_mul]
        exact mul_le_mul_of_nonneg_left (hb k) (abs_nonneg _)
    _ = (∑ k, |(Matrix.of A)⁻¹ j k|) * b := by rw [Finset.sum_mul]
    _ ≤ _ := by
        apply mul_le_mul_of_nonneg_right _ hb0
        exact Finset.single_le_sum (f := fun i => ∑ k, |(Matrix.of A)⁻¹ i k|)
          (fun i _ => Finset.sum_nonneg fun k _ => abs_nonneg _) (Finset.mem_univ j)

/-! ### Geometric convergence -/

theorem evolve_add (P : ι → ι → K) (nu : ι → K) (s t : ℕ) :
    evolve P nu (s + t) = evolve P (evolve P nu s) t := by
  induction t with
  | zero => rfl
  | succ t ih => rw [← Nat.add_assoc]; simp only [evolve, ih]

theorem evolve_linear (P : ι → ι → K) (nu mu : ι → K) (t : ℕ) (j : ι) :
    evolve P (fun i => nu i - mu i) t j = evolve P nu t j - evolve P mu t j := by
  induction t generalizing j with
  | zero => rfl
  | succ t ih => simp only [evolve, ih, sub_mul, Finset.sum_sub_distrib]

theorem evolve_invariant (P : ι → ι → K) (mu : ι → K) (h : ∀ j, ∑ i, mu i * P i j = mu j) (t : ℕ) :
    evolve P mu t = mu := by
  induction t with
  | zero => rfl
  | succ t ih => funext j; simp only [evolve, ih, h]

/-- The distribution after `t` periods from `nu` is the average over `nu` of those from each state. -/
theorem evolve_mix (P : ι → ι → K) (nu : ι → K) (t : ℕ) (j : ι) :
    evolve P nu t j = ∑ i, nu i * evolve P (fun k => if k = i then 1 else 0) t j := by
  induction t generalizing j with
  | zero => simp [evolve]
  | succ t ih =>
    simp only [evolve, ih, Finset.sum_mul, Finset.mul_sum]
    rw [Finset.sum_comm]
    simp only [mul_assoc]

theorem evolve_l1 (P : ι → ι → K) (hP : ∀ i, ∑ j, P i j = 1) (hpos : ∀ i j, 0 ≤ P i j) (d : ι → K) (t : ℕ) :
    ∑ j, |evolve P d t j| ≤ ∑ j, |d j| := by
  induction t with
  | zero => exact le_rfl
  | succ t ih =>
    refine le_trans ?_ ih
    calc ∑ j, |evolve P d (t + 1) j| ≤ ∑ j, ∑ i, |evolve P d t i| * P i j := by
          apply Finset.sum_le_sum
          intro j _
          refine (Finset.abs_sum_le_sum_abs _ _).trans (le_of_eq (Finset.sum_congr rfl fun i _ => ?_))
          rw [abs_mul, abs_of_nonneg (hpos i j)]
      _ = _ := by
          rw [Finset.sum_comm]
          simp only [← Finset.mul_sum, hP, mul_one]

/-- Doeblin's contraction: if state `j0` has probability at least `e` after `n` periods from every state,
differences of distributions shrink by `1 - e`. -/
theorem doeblin (P : ι → ι → K) (hP : ∀ i, ∑ j, P i j = 1) (hpos : ∀ i j, 0 ≤ P i j) (n : ℕ) (j0 : ι) (e : K)
    (he : ∀ i, e ≤ evolve P (fun k => if k = i then 1 else 0) n j0) (d : ι → K) (hd : ∑ i, d i = 0) :
    ∑ j, |evolve P d n j| ≤ (1 - e) * ∑ j, |d j| := by
  have h1 : ∀ i j, 0 ≤ evolve P (fun k => if k = i then 1 else 0) n j - (if j = j0 then e else 0) := by
    intro i j
    split_ifs with h
    · rw [h]; linarith [he i]
    · rw [sub_zero]
      exact evolve_nonneg P hpos _ (fun k => by split_ifs <;> norm_num) n j
  have h2 : ∀ j, evolve P d n j =
      ∑ i, d i * (evolve P (fun k => if k = i then 1 else 0) n j - (if j = j0 then e else 0)) := by
    intro j
    simp only [mul_sub, Finset.sum_sub_distrib, ← Finset.sum_mul, hd, zero_mul, sub_zero]
    exact evolve_mix P d n j
  calc ∑ j, |evolve P d n j|
      ≤ ∑ j, ∑ i, |d i| * (evolve P (fun k => if k = i then 1 else 0) n j - (if j = j0 then e else 0)) := by
        apply Finset.sum_le_sum
        intro j _
        rw [h2 j]
        refine (Finset.abs_sum_le_sum_abs _ _).trans (le_of_eq (Finset.sum_congr rfl fun i _ => ?_))
        rw [abs_mul, abs_of_nonneg (h1 i j)]
    _ = ∑ i, |d i| * (1 - e) := by
        rw [Finset.sum_comm]
        apply Finset.sum_congr rfl
        intro i _
        rw [← Finset.mul_sum, Finset.sum_sub_distrib, evolve_sum P hP]
        simp
    _ = _ := by rw [← Finset.sum_mul, mul_comm]

theorem geometric (P : ι → ι → K) (hP : ∀ i, ∑ j, P i j = 1) (hpos : ∀ i j, 0 ≤ P i j) (n : ℕ) (j0 : ι) (e : K)
    (he1 : e ≤ 1) (he : ∀ i, e ≤ evolve P (fun k => if k = i then 1 else 0) n j0) (d : ι → K)
    (hd : ∑ i, d i = 0) (q : ℕ) :
    ∑ j, |evolve P d (q * n) j| ≤ (1 - e) ^ q * ∑ j, |d j| := by
  induction q with
  | zero => simp [evolve]
  | succ q ih =>
    rw [Nat.succ_mul, evolve_add]
    refine (doeblin P hP hpos n j0 e he _ (by rw [evolve_sum P hP, hd])).trans ?_
    rw [pow_succ, mul_comm ((1 - e) ^ q) (1 - e), mul_assoc]
    exact mul_le_mul_of_nonneg_left ih (by linarith)

end Dolo
