import Mathlib.Algebra.Field.Basic
import Mathlib.Algebra.BigOperators.Group.List.Basic
import Mathlib.Algebra.CharZero.Defs
import Mathlib.Tactic.Ring
import Mathlib.Tactic.FieldSimp
import Mathlib.Tactic.LinearCombination
import Mathlib.Tactic.Linarith
import Verif.Props.Distribution
import Verif.Props.Rouwenhorst
import Verif.Props.Hermgauss
import Verif.Props.Quadrature

/-!
# C143: symmetric shocks stay symmetric
-/

set_option linter.unusedSectionVars false

namespace Dolo

variable {K : Type} [Field K]

/-- The mirror image of a point, seen from `c`. -/
def mirror (c x : List K) : List K := List.zipWith (fun c v => 2 * c - v) c x

/-- The distribution is its own mirror image: the point found at a position and the one found at the same position from the end are
opposite seen from `c`, and have the same weight. -/
structure SymmetricAt (c : List K) (d : FiniteDist K) : Prop where
  proper : Proper d
  dim : ∀ x ∈ d.points, x.length = c.length
  points : d.points.reverse = d.points.map (mirror c)
  weights : d.weights.reverse = d.weights

/-- A quadrature rule symmetric about zero. -/
structure SymmetricRule (r : Rule K) : Prop where
  points : r.points.reverse = r.points.map fun x => -x
  weights : r.weights.reverse = r.weights

theorem reverse_range_map {α : Type} (n : ℕ) (f : ℕ → α) :
    ((List.range n).map f).reverse = (List.range n).map fun i => f (n - 1 - i) := by
  apply List.ext_getElem (by simp)
  intro i h1 h2
  simp

theorem zip_reverse {α β : Type} (a : List α) (b : List β) (h : a.length = b.length) :
    a.reverse.zip b.reverse = (a.zip b).reverse := by
  induction a generalizing b with
  | nil => simp
  | cons x a ih =>
    rcases b with _ | ⟨y, b⟩
    · simp at h
    · simp only [List.length_cons, Nat.add_right_cancel_iff] at h
      simp only [List.reverse_cons, List.zip_cons_cons]
      rw [List.zip_append (by simp [h]), ih b h]
      rfl

theorem items_reverse {c : List K} {d : FiniteDist K} (h : SymmetricAt c d) :
    d.items.reverse = d.items.map fun wx => (wx.1, mirror c wx.2) := by
  unfold FiniteDist.items
  rw [← zip_reverse _ _ h.proper.symm, h.points, h.weights]
  simp only [List.zip_map_right]
  rfl

theorem symmetricAt_of_items {c : List K} {d : FiniteDist K} (hp : Proper d) (hd : ∀ x ∈ d.points, x.length = c.length)
    (h : d.items.reverse = d.items.map fun wx => (wx.1, mirror c wx.2)) : SymmetricAt c d := by
  have e1 := map_fst_items d hp
  have e2 := map_snd_items d hp
  refine ⟨hp, hd, ?_, ?_⟩
  · conv_lhs => rw [← e2, ← List.map_reverse, h, List.map_map]
    conv_rhs => rw [← e2, List.map_map]
    rfl
  · conv_lhs => rw [← e1, ← List.map_reverse, h, List.map_map]
    conv_rhs => rw [← e1]
    rfl

/-- **C143, odd functions.**  Under a symmetric distribution, functions that change sign when the shock is mirrored have a zero
expectation. -/
theorem C143_odd [CharZero K] (c : List K) (d : FiniteDist K) (h : SymmetricAt c d) (f : List K → K)
    (hf : ∀ x ∈ d.points, f (mirror c x) = -f x) : d.integrate f = 0 := by
  have e1 : d.integrate f = ((d.items.reverse).map fun wx => wx.1 * f wx.2).sum := by
    rw [FiniteDist.integrate, List.map_reverse, List.sum_reverse]
  have e3 : d.integrate f = -d.integrate f := by
    conv_lhs => rw [e1, items_reverse h, List.map_map]
    rw [FiniteDist.integrate, List.sum_neg, List.map_map]
    congr 1
    refine List.map_congr_left fun wx hwx => ?_
    have hx : wx.2 ∈ d.points := by
      rw [← map_snd_items d h.proper]
      exact List.mem_map_of_mem hwx
    simp only [Function.comp_apply, hf _ hx]
    ring
  have : (2 : K) * d.integrate f = 0 := by linear_combination e3
  simpa using this

theorem mirror_flatten : ∀ (cs xs : List (List K)), List.Forall₂ (fun c x : List K => x.length = c.length) cs xs →
    (List.zipWith mirror cs xs).flatten = mirror cs.flatten xs.flatten
  | _, _, .nil => rfl
  | _, _, .cons (a := c) (b := x) (l₁ := cs) (l₂ := xs) h t => by
    rw [List.zipWith_cons_cons, List.flatten_cons, mirror_flatten cs xs t, List.flatten_cons, List.flatten_cons, mirror, mirror,
      mirror, List.zipWith_append h.symm]

theorem wprod_reverse {cs : List (List K)} {fs : List (FiniteDist K)} (h : List.Forall₂ SymmetricAt cs fs) :
    (wprod (fs.map FiniteDist.items)).reverse = (wprod (fs.map FiniteDist.items)).map fun t => (t.1, List.zipWith mirror cs t.2) := by
  induction h with
  | nil => rfl
  | cons h t ih =>
    simp only [List.map_cons, wprod, List.reverse_flatMap, items_reverse h, List.map_flatMap, List.flatMap_map, Function.comp_def,
      ← List.map_reverse, ih, List.map_map, List.zipWith_cons_cons]

theorem wprod_dims {cs : List (List K)} {fs : List (FiniteDist K)} (h : List.Forall₂ SymmetricAt cs fs) :
    ∀ t ∈ wprod (fs.map FiniteDist.items), List.Forall₂ (fun c x : List K => x.length = c.length) cs t.2 := by
  induction h with
  | nil =>
    intro t ht
    simp only [List.map_nil, wprod, List.mem_singleton] at ht
    subst ht
    exact .nil
  | cons h t ih =>
    intro u hu
    simp only [List.map_cons, wprod, List.mem_flatMap, List.mem_map] at hu
    obtain ⟨x, hx, v, hv, rfl⟩ := hu
    refine .cons (h.dim _ ?_) (ih v hv)
    rw [← map_snd_items _ h.proper]
    exact List.mem_map_of_mem hx

/-- **C143, products.**  The product of symmetric distributions is symmetric about the joint centre. -/
theorem C143_product (cs : List (List K)) (fs : List (FiniteDist K)) (h : List.Forall₂ SymmetricAt cs fs) (d : FiniteDist K)
    (hd : productIid fs = .ok d) : SymmetricAt cs.flatten d := by
  have hne : fs ≠ [] := by
    rintro rfl
    cases hd
  have hp : ∀ f ∈ fs, f.points.length = f.weights.length := by
    intro f hf
    obtain ⟨i, hi, e⟩ := List.mem_iff_getElem.1 hf
    have := h.get (by rw [h.length_eq]; exact hi) hi
    rw [List.get_eq_getElem, List.get_eq_getElem, e] at this
    exact this.proper
  rw [productIid_eq fs hne hp] at hd
  cases hd
  have hdim := wprod_dims h
  have hrev := wprod_reverse h
  refine ⟨by simp [Proper], ?_, ?_, ?_⟩
  · intro x hx
    obtain ⟨t, ht, rfl⟩ := List.mem_map.1 hx
    have := hdim t ht
    have aux : ∀ (a b : List (List K)), List.Forall₂ (fun c x : List K => x.length = c.length) a b →
        b.flatten.length = a.flatten.length := by
      intro a b hab
      induction hab with
      | nil => rfl
      | cons h _ ih => simp [h, ih]
    exact aux _ _ this
  · simp only
    rw [← List.map_reverse, hrev, List.map_map, List.map_map]
    refine List.map_congr_left fun t ht => ?_
    exact mirror_flatten _ _ (hdim t ht)
  · simp only
    rw [← List.map_reverse, hrev, List.map_map]
    rfl

theorem linspace_reverse [CharZero K] (a b : K) (n : ℕ) (h : n = 1 → a = b) :
    (linspace a b n).reverse = (linspace a b n).map fun x => a + b - x := by
  unfold linspace
  rw [reverse_range_map, List.map_map]
  refine List.map_congr_left fun i hi => ?_
  have hi' := List.mem_range.1 hi
  simp only [Function.comp_apply]
  by_cases h1 : n ≤ 1
  · rw [if_pos h1, if_pos h1, h (by omega)]
    ring
  · rw [if_neg h1, if_neg h1]
    have hn : (n : K) - 1 ≠ 0 := by
      intro e
      have : (n : K) = 1 := sub_eq_zero.1 e
      have : n = 1 := by exact_mod_cast this
      omega
    rw [Nat.cast_sub (by omega), Nat.cast_sub (by omega)]
    field_simp
    push_cast
    ring

theorem midpoints_map_reverse (l : List K) : (midpoints l).reverse = midpoints l.reverse := by
  have aux : ∀ (l : List K) (x y : K), midpoints (l ++ [x, y]) = midpoints (l ++ [x]) ++ [(1 / 2) * (y + x)] := by
    intro l
    induction l with
    | nil => intro x y; rfl
    | cons a l ih =>
      intro x y
      rcases l with _ | ⟨b, l⟩
      · rfl
      · have := ih x y
        simp only [List.cons_append, midpoints] at this ⊢
        rw [this]
  induction l with
  | nil => rfl
  | cons x l ih =>
    rcases l with _ | ⟨y, l⟩
    · rfl
    · rw [midpoints, List.reverse_cons, ih]
      simp only [List.reverse_cons, List.append_assoc, List.cons_append, List.nil_append]
      rw [aux, add_comm x y]

theorem midpoints_mirror [CharZero K] (c : K) (l : List K) : midpoints (l.map fun x => 2 * c - x) = (midpoints l).map fun x => 2 * c - x := by
  induction l with
  | nil => rfl
  | cons x l ih =>
    rcases l with _ | ⟨y, l⟩
    · rfl
    · simp only [List.map_cons, midpoints] at ih ⊢
      rw [ih]
      congr 1
      field_simp
      ring

theorem equi_symmetric (c : K) (q : List K) (h : q.reverse = q.map fun x => 2 * c - x) :
    SymmetricAt [c] (equiprobable (q.map fun x => [x])) := by
  refine ⟨by simp [Proper, equiprobable, equiWeights], ?_, ?_, ?_⟩
  · intro x hx
    simp only [equiprobable, List.mem_map] at hx
    obtain ⟨a, -, rfl⟩ := hx
    rfl
  · simp only [equiprobable]
    rw [← List.map_reverse, h, List.map_map, List.map_map]
    rfl
  · simp [equiprobable, equiWeights]

/-- **C143, equiprobable points.**  If the quantiles of a distribution are symmetric about `c`, so are its equiprobable points, taken as
medians or middles of the cells, for every number of points. -/
theorem C143_equiprobable [CharZero K] (ppf : K → K) (c : K) (hs : ∀ q, ppf (1 - q) = 2 * c - ppf q) (N : ℕ) (mp : MassPoint)
    (hmp : mp = .median ∨ mp = .middle) (d : FiniteDist K) (hd : discretizeEp ppf N mp = .ok d) : SymmetricAt [c] d := by
  unfold discretizeEp at hd
  rw [if_neg (by rcases hmp with rfl | rfl <;> simp)] at hd
  by_cases hN : N = 0
  · rw [if_pos hN] at hd
    cases hd
  · rw [if_neg hN] at hd
    have hn : (N : K) ≠ 0 := by exact_mod_cast hN
    rcases hmp with rfl | rfl
    · simp only [Except.ok.injEq] at hd
      subst hd
      apply equi_symmetric
      rw [← List.map_reverse, linspace_reverse _ _ _ (by rintro rfl; norm_num), List.map_map, List.map_map]
      refine List.map_congr_left fun x _ => ?_
      simp only [Function.comp_apply]
      rw [← hs]
      congr 1
      ring
    · simp only [Except.ok.injEq] at hd
      subst hd
      apply equi_symmetric
      rw [midpoints_map_reverse, ← midpoints_mirror, ← List.map_reverse, linspace_reverse _ _ _ (by omega), List.map_map, List.map_map]
      congr 1
      refine List.map_congr_left fun x _ => ?_
      simp only [Function.comp_apply]
      rw [← hs]
      congr 1
      ring

/-- **C143, left and right ends** of the cells are mirror images of each other, not of themselves. -/
theorem C143_left_right [CharZero K] (ppf : K → K) (c : K) (hs : ∀ q, ppf (1 - q) = 2 * c - ppf q) (N : ℕ) (d : FiniteDist K)
    (hd : discretizeEp ppf N .left = .ok d) :
    ∃ d', discretizeEp ppf N .right = .ok d' ∧ d'.points.reverse = d.points.map (mirror [c]) ∧ d'.weights = d.weights := by
  unfold discretizeEp at hd ⊢
  rw [if_neg (by simp)] at hd
  rw [if_neg (by simp)]
  by_cases hN : N = 0
  · rw [if_pos hN] at hd
    cases hd
  · rw [if_neg hN] at hd
    rw [if_neg hN]
    have hn : (N : K) ≠ 0 := by exact_mod_cast hN
    simp only [Except.ok.injEq] at hd
    subst hd
    refine ⟨_, rfl, ?_, by simp [equiprobable, equiWeights, linspace]⟩
    simp only [equiprobable]
    rw [← List.map_reverse, ← List.map_reverse, List.map_map, List.map_map, List.map_map]
    have : (linspace (1 / (N : K)) 1 N).reverse = (linspace 0 (1 - 1 / (N : K)) N).map fun x => 1 - x := by
      unfold linspace
      rw [reverse_range_map, List.map_map]
      refine List.map_congr_left fun i hi => ?_
      have hi' := List.mem_range.1 hi
      simp only [Function.comp_apply]
      by_cases h1 : N ≤ 1
      · obtain rfl : N = 1 := by omega
        simp
      · rw [if_neg h1, if_neg h1]
        have hn1 : (N : K) - 1 ≠ 0 := by
          intro e
          have : (N : K) = 1 := sub_eq_zero.1 e
          have : N = 1 := by exact_mod_cast this
          omega
        rw [Nat.cast_sub (by omega), Nat.cast_sub (by omega)]
        field_simp
        push_cast
        ring
    rw [this, List.map_map]
    refine List.map_congr_left fun x _ => ?_
    simp only [Function.comp_apply, hs]
    rfl

/-- **C143, one normal variable.**  With a symmetric rule the discretised variable is symmetric about its mean. -/
theorem C143_unormal [DecidableEq K] (sqrt : K → K) (r : Rule K) (hr : SymmetricRule r) (mu sigma : K) (d : FiniteDist K)
    (hd : unormalDiscretizeGh sqrt r mu sigma = .ok d) : SymmetricAt [mu] d := by
  simp only [unormalDiscretizeGh, gaussHermiteNodes, dif_pos, bind, Except.bind, List.map_map] at hd
  obtain ⟨hp, h1, h2⟩ := proper_of_mk' hd
  refine ⟨hp, ?_, ?_, ?_⟩
  · rw [h1]
    intro x hx
    obtain ⟨a, -, rfl⟩ := List.mem_map.1 hx
    rfl
  · rw [h1, ← List.map_reverse, hr.points, List.map_map, List.map_map]
    refine List.map_congr_left fun x _ => ?_
    simp only [Function.comp_apply, List.map_cons, List.map_nil, mirror, List.zipWith_cons_cons, List.zipWith_nil_left]
    congr 1
    ring
  · rw [h2, hr.weights]

/-- **C143, the quadrature rule.**  With an even number of nodes `hermgauss` returns a symmetric rule, whatever its tolerance. -/
theorem C143_hermgauss (tol s6 c1 : ℝ) (n : ℕ) (hn : n % 2 = 1) (x w : List ℝ)
    (hr : hermgauss (realHerm tol) s6 c1 (n + 1) = .ok (x, w)) :
    SymmetricRule (⟨x.map fun v => v * Real.sqrt 2, w.map fun v => v / Real.sqrt Real.pi⟩ : Rule ℝ) := by
  obtain ⟨h1, h2, h3⟩ := C98_nodes tol s6 c1 n x w hr
  have gx : x.reverse = x.map fun v => -v := by
    apply List.ext_getElem (by simp)
    intro i hi1 hi2
    have hi : i < n + 1 := by simpa [h1] using hi1
    have := (h3 i hi).2.2.1 (by omega)
    rw [List.getElem_reverse, List.getElem_map]
    rw [List.getD_eq_getElem?_getD, List.getD_eq_getElem?_getD, List.getElem?_eq_getElem (by omega), List.getElem?_eq_getElem (by omega), Option.getD_some, Option.getD_some] at this
    rw [← this]
    congr 1
    omega
  have gw : w.reverse = w := by
    apply List.ext_getElem (by simp)
    intro i hi1 hi2
    have hi : i < n + 1 := by simpa [h2] using hi1
    have := (h3 i hi).2.1
    rw [List.getElem_reverse]
    rw [List.getD_eq_getElem?_getD, List.getD_eq_getElem?_getD, List.getElem?_eq_getElem (by omega), List.getElem?_eq_getElem (by omega), Option.getD_some, Option.getD_some] at this
    rw [← this]
    congr 1
    omega
  refine ⟨?_, ?_⟩
  · simp only
    rw [← List.map_reverse, gx, List.map_map, List.map_map]
    refine List.map_congr_left fun v _ => ?_
    simp only [Function.comp_apply]
    ring
  · simp only
    rw [← List.map_reverse, gw]

theorem rouwMat_mirror (p : K) : ∀ n, 2 ≤ n → ∀ i j, i < n → j < n → rouwMat p p n (n - 1 - i) (n - 1 - j) = rouwMat p p n i j
  | 0, h, _, _, _, _ => by omega
  | 1, h, _, _, _, _ => by omega
  | 2, _, i, j, hi, hj => by
    interval_cases i <;> interval_cases j <;> simp [rouwMat, rouwBase]
  | n + 3, _, i, j, hi, hj => by
    have ih := rouwMat_mirror p (n + 2) (by omega)
    rw [rouwMat]
    unfold rouwStep
    simp only
    have hA : (if n + 3 - 1 - i < n + 3 - 1 ∧ n + 3 - 1 - j < n + 3 - 1 then rouwMat p p (n + 2) (n + 3 - 1 - i) (n + 3 - 1 - j) else 0)
        = (if 1 ≤ i ∧ i < n + 3 ∧ 1 ≤ j ∧ j < n + 3 then rouwMat p p (n + 2) (i - 1) (j - 1) else 0) := by
      by_cases c : 1 ≤ i ∧ 1 ≤ j
      · rw [if_pos (by omega), if_pos (by omega), ← ih (i - 1) (j - 1) (by omega) (by omega)]
        congr 1 <;> omega
      · rw [if_neg (by omega), if_neg (by omega)]
    have hD : (if 1 ≤ n + 3 - 1 - i ∧ n + 3 - 1 - i < n + 3 ∧ 1 ≤ n + 3 - 1 - j ∧ n + 3 - 1 - j < n + 3 then
          rouwMat p p (n + 2) (n + 3 - 1 - i - 1) (n + 3 - 1 - j - 1) else 0)
        = (if i < n + 3 - 1 ∧ j < n + 3 - 1 then rouwMat p p (n + 2) i j else 0) := by
      by_cases c : i < n + 2 ∧ j < n + 2
      · rw [if_pos (by omega), if_pos (by omega), ← ih i j (by omega) (by omega)]
        congr 1 <;> omega
      · rw [if_neg (by omega), if_neg (by omega)]
    have hB : (if n + 3 - 1 - i < n + 3 - 1 ∧ 1 ≤ n + 3 - 1 - j ∧ n + 3 - 1 - j < n + 3 then
          rouwMat p p (n + 2) (n + 3 - 1 - i) (n + 3 - 1 - j - 1) else 0)
        = (if 1 ≤ i ∧ i < n + 3 ∧ j < n + 3 - 1 then rouwMat p p (n + 2) (i - 1) j else 0) := by
      by_cases c : 1 ≤ i ∧ j < n + 2
      · rw [if_pos (by omega), if_pos (by omega), ← ih (i - 1) j (by omega) (by omega)]
        congr 1 <;> omega
      · rw [if_neg (by omega), if_neg (by omega)]
    have hC : (if 1 ≤ n + 3 - 1 - i ∧ n + 3 - 1 - i < n + 3 ∧ n + 3 - 1 - j < n + 3 - 1 then
          rouwMat p p (n + 2) (n + 3 - 1 - i - 1) (n + 3 - 1 - j) else 0)
        = (if i < n + 3 - 1 ∧ 1 ≤ j ∧ j < n + 3 then rouwMat p p (n + 2) i (j - 1) else 0) := by
      by_cases c : i < n + 2 ∧ 1 ≤ j
      · rw [if_pos (by omega), if_pos (by omega), ← ih i (j - 1) (by omega) (by omega)]
        congr 1 <;> omega
      · rw [if_neg (by omega), if_neg (by omega)]
    rw [hA, hB, hC, hD]
    by_cases c : 1 ≤ i ∧ i < n + 3 - 1
    · rw [if_pos (by omega), if_pos c]
      ring
    · rw [if_neg (by omega), if_neg c]
      ring

/-- **C143, Rouwenhorst's chain.**  The list of nodes read backwards is the list of opposite nodes, and the transition matrix read backwards
along both dimensions is unchanged, for every number of states. -/
theorem C143_rouwenhorst [CharZero K] (sqrt : K → K) (rho sigma : K) (N : ℕ) :
    (rouwenhorst sqrt rho sigma N).1.reverse = (rouwenhorst sqrt rho sigma N).1.map (fun x => -x) ∧
    ((rouwenhorst sqrt rho sigma N).2.map List.reverse).reverse = (rouwenhorst sqrt rho sigma N).2 := by
  by_cases h1 : N = 1
  · subst h1
    simp [rouwenhorst]
  · have hM : ∀ n, 2 ≤ n → ((matRows n n (rouwMat ((rho + 1) / 2) ((rho + 1) / 2) n)).map List.reverse).reverse
        = matRows n n (rouwMat ((rho + 1) / 2) ((rho + 1) / 2) n) := by
      intro n hn
      unfold matRows
      rw [List.map_map, reverse_range_map]
      refine List.map_congr_left fun i hi => ?_
      simp only [Function.comp_apply]
      rw [reverse_range_map]
      refine List.map_congr_left fun j hj => ?_
      exact rouwMat_mirror _ n hn i j (List.mem_range.1 hi) (List.mem_range.1 hj)
    have hN : ∀ nu : K, (linspace (-nu) nu N).reverse = (linspace (-nu) nu N).map fun x => -x := by
      intro nu
      rw [linspace_reverse _ _ _ (by omega)]
      refine List.map_congr_left fun x _ => ?_
      ring
    unfold rouwenhorst
    rw [if_neg h1]
    by_cases h2 : N = 2
    · subst h2
      simp only [if_true]
      exact ⟨hN _, hM 2 le_rfl⟩
    · simp only [h2, if_false]
      refine ⟨hN _, ?_⟩
      by_cases h0 : N = 0
      · subst h0
        exact hM 2 le_rfl
      · have : Nat.max N 2 = N := Nat.max_eq_left (by omega)
        rw [this]
        exact hM N (by omega)

/-- A chain is its own mirror image. -/
structure SymmetricChain (c : List K) (m : MChain K) : Prop where
  square : ∀ r ∈ m.transitions, r.length = m.values.length
  values : m.values.reverse = m.values.map (mirror c)
  transitions : (m.transitions.map List.reverse).reverse = m.transitions

/-- **C143, conditional expectations.**  In a symmetric chain, from the mirrored state, a function has the expectation that the mirrored
function has from the state itself. -/
theorem C143_chain (c : List K) (m : MChain K) (h : SymmetricChain c m) (i : ℕ) (hi : i < m.transitions.length) (f : List K → K) :
    m.expect (m.transitions.length - 1 - i) f = m.expect i (fun x => f (mirror c x)) := by
  have hrow : m.transitions[m.transitions.length - 1 - i]? = (m.transitions[i]?).map List.reverse := by
    conv_lhs => rw [← h.transitions]
    rw [List.getElem?_reverse (by simp; omega), List.getElem?_map]
    congr 2
    simp
    omega
  have hi' := List.getElem?_eq_getElem hi
  unfold MChain.expect pyGet
  rw [hrow, hi']
  simp only [Option.map_some, bind, Except.bind, pure, Except.pure]
  congr 1
  have hl := h.square _ (List.getElem_mem hi)
  generalize m.transitions[i] = r at hl
  have e : m.values = (m.values.map (mirror c)).reverse := by rw [← h.values, List.reverse_reverse]
  conv_lhs => rw [e, zip_reverse _ _ (by simp [hl]), List.map_reverse, List.sum_reverse, List.zip_map_right, List.map_map]
  rfl

theorem ritems_reverse {r : Rule K} (h : SymmetricRule r) (hl : r.points.length = r.weights.length) :
    (ritems r).reverse = (ritems r).map fun wx => (wx.1, -wx.2) := by
  unfold ritems
  rw [← zip_reverse _ _ hl.symm, h.points, h.weights, List.zip_map_right]
  rfl

theorem wprod_ritems_reverse (rs : List (Rule K)) (h : ∀ r ∈ rs, SymmetricRule r ∧ r.points.length = r.weights.length) :
    (wprod (rs.map ritems)).reverse = (wprod (rs.map ritems)).map fun t => (t.1, t.2.map fun x => -x) := by
  induction rs with
  | nil => rfl
  | cons r rs ih =>
    have ih := ih fun r hr => h r (by simp [hr])
    have h1 := h r (by simp)
    simp only [List.map_cons, wprod, List.reverse_flatMap, ritems_reverse h1.1 h1.2, List.map_flatMap, List.flatMap_map,
      Function.comp_def, ← List.map_reverse, ih, List.map_map]

/-- **C143, several normal variables.**  With symmetric rules the discretised variables are symmetric, but about twice their mean, except in
the directions taken to be constant. -/
theorem C143_normal [DecidableEq K] {n : ℕ} (sqrt : K → K) (chol : (Fin n → Fin n → K) → Except Err (Fin n → Fin n → K))
    (rules : List (Rule K)) (hn : 2 ≤ n) (hlen : rules.length = n)
    (hr : ∀ r ∈ rules, SymmetricRule r ∧ r.points.length = r.weights.length) (sigma C : Fin n → Fin n → K) (mu : Fin n → K)
    (hC : chol (fillDiag sigma) = .ok C) :
    ∃ d, normalDiscretize sqrt chol rules sigma mu = .ok d ∧
      SymmetricAt (List.ofFn fun a => if ∑ j, sigma j a = 0 then mu a else 2 * mu a) d := by
  refine ⟨_, normalDiscretize_eq sqrt chol rules hn hlen (fun r h => (hr r h).2) sigma C mu hC, by simp [Proper], ?_, ?_, ?_⟩
  · intro x hx
    obtain ⟨t, -, rfl⟩ := List.mem_map.1 hx
    simp [nodeImage]
  · simp only
    rw [← List.map_reverse, wprod_ritems_reverse rules hr, List.map_map, List.map_map]
    refine List.map_congr_left fun t _ => ?_
    simp only [Function.comp_apply, nodeImage, mirror]
    have hz : ∀ k : Fin n, (t.2.map fun x => -x).getD k 0 = -(t.2.getD k 0) := by
      intro k
      simp only [List.getD_eq_getElem?_getD, List.getElem?_map]
      cases t.2[(k : ℕ)]? <;> simp
    apply List.ext_getElem (by simp)
    intro i h1 h2
    simp only [List.getElem_ofFn, List.getElem_zipWith, hz, zeroColumns, decide_eq_true_eq, mul_neg, Finset.sum_neg_distrib]
    split <;> ring
  · simp only
    rw [← List.map_reverse, wprod_ritems_reverse rules hr, List.map_map]
    rfl

/-- **C143, several normal variables** with zero mean are symmetric about it. -/
theorem C143_normal_partial [DecidableEq K] {n : ℕ} (sqrt : K → K) (chol : (Fin n → Fin n → K) → Except Err (Fin n → Fin n → K))
    (rules : List (Rule K)) (hn : 2 ≤ n) (hlen : rules.length = n)
    (hr : ∀ r ∈ rules, SymmetricRule r ∧ r.points.length = r.weights.length) (sigma C : Fin n → Fin n → K)
    (hC : chol (fillDiag sigma) = .ok C) :
    ∃ d, normalDiscretize sqrt chol rules sigma (fun _ => 0) = .ok d ∧ SymmetricAt (List.replicate n 0) d := by
  obtain ⟨d, h1, h2⟩ := C143_normal sqrt chol rules hn hlen hr sigma C (fun _ => 0) hC
  refine ⟨d, h1, ?_⟩
  have : (List.ofFn fun a : Fin n => if ∑ j, sigma j a = 0 then (0 : K) else 2 * 0) = List.replicate n 0 := by
    apply List.ext_getElem (by simp)
    intro i h1 h2
    simp
  rwa [this] at h2

/-- **C143, several normal variables** with a mean are not symmetric about it. -/
theorem C143_normal_fails :
    ∃ (chol : (Fin 2 → Fin 2 → ℚ) → Except Err (Fin 2 → Fin 2 → ℚ)) (r : Rule ℚ) (d : FiniteDist ℚ), SymmetricRule r ∧
      normalDiscretize id chol [r, r] (fun a b => if a = b then 1 else 0) (fun _ => 1) = .ok d ∧ ¬ SymmetricAt [1, 1] d := by
  obtain ⟨d, hd, hs⟩ := C143_normal id (fun s => .ok s) [(⟨[-1, 1], [1 / 2, 1 / 2]⟩ : Rule ℚ), ⟨[-1, 1], [1 / 2, 1 / 2]⟩] le_rfl rfl
    (by
      intro r hr
      simp only [List.mem_cons, List.not_mem_nil, or_false, or_self] at hr
      subst hr
      exact ⟨⟨by decide +kernel, by decide +kernel⟩, rfl⟩)
    (fun a b => if a = b then 1 else 0) _ (fun _ => 1) rfl
  refine ⟨fun s => .ok s, ⟨[-1, 1], [1 / 2, 1 / 2]⟩, d, ⟨by decide +kernel, by decide +kernel⟩, hd, fun h => ?_⟩
  have hc : (List.ofFn fun a : Fin 2 => if ∑ j : Fin 2, (if j = a then (1 : ℚ) else 0) = 0 then (1 : ℚ) else 2 * 1) = [2, 2] := by
    decide +kernel
  rw [hc] at hs
  have hp : d.points ≠ [] := by
    have : ((normalDiscretize (d := 2) id (fun s => .ok s) [(⟨[-1, 1], [1 / 2, 1 / 2]⟩ : Rule ℚ), ⟨[-1, 1], [1 / 2, 1 / 2]⟩]
      (fun a b => if a = b then 1 else 0) (fun _ => 1)).toOption.map fun d => d.points.length) = some 4 := by decide +kernel
    rw [hd] at this
    simp only [Except.toOption, Option.map_some, Option.some.injEq] at this
    intro e
    rw [e] at this
    cases this
  obtain ⟨x, l, e⟩ := List.exists_cons_of_ne_nil hp
  have h1 := h.points
  rw [hs.points, e, List.map_cons, List.map_cons, List.cons.injEq] at h1
  have hx := h.dim x (by rw [e]; simp)
  match x, hx, h1.1 with
  | [u, v], _, h2 =>
    simp only [mirror, List.zipWith_cons_cons, List.cons.injEq] at h2
    linarith [h2.1]

/-- Rouwenhorst's chain with three states is a symmetric chain. -/
example : SymmetricChain [(0 : ℚ)] ⟨(rouwenhorst id 0 1 3).2, (rouwenhorst id (0 : ℚ) 1 3).1.map fun x => [x]⟩ := by
  refine ⟨by decide +kernel, by decide +kernel, by decide +kernel⟩

/-- A symmetric distribution. -/
example : SymmetricAt [(1 : ℚ)] ⟨[[0], [1], [2]], [1 / 4, 1 / 2, 1 / 4]⟩ :=
  ⟨rfl, by decide, by decide +kernel, by decide +kernel⟩

end Dolo
