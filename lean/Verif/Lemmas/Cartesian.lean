import Mathlib.Tactic.Ring
import Mathlib.Tactic.Linarith
import Mathlib.Algebra.BigOperators.Group.List.Basic
import Mathlib.Data.List.ProdSigma
import Verif.Model.Cartesian

/-! Helper lemmas about the product enumeration. -/

namespace Dolo

variable {α β : Type _}

/-- Row-major product of lists by plain recursion (proof device). -/
def prodRows : List (List α) → List (List α)
  | [] => [[]]
  | a :: r => a.flatMap fun x => (prodRows r).map fun t => x :: t

@[simp] theorem prodRows_nil : prodRows ([] : List (List α)) = [[]] := rfl

@[simp] theorem prodRows_cons (a : List α) (r : List (List α)) :
    prodRows (a :: r) = a.flatMap fun x => (prodRows r).map fun t => x :: t := rfl

theorem length_prodRows (l : List (List α)) :
    (prodRows l).length = (l.map List.length).prod := by
  induction l with
  | nil => simp
  | cons a r ih => simp [List.length_flatMap, ih]

theorem npRepeat_one (a : List α) : npRepeat a 1 = a := by
  simp [npRepeat]

theorem zipWith_repeat_tile (f : α → β → List α) (a : List α) (sub : List β) :
    List.zipWith f (npRepeat a sub.length) ((List.replicate a.length sub).flatten)
      = a.flatMap fun x => sub.map (f x) := by
  induction a with
  | nil => simp [npRepeat]
  | cons x a ih =>
    simp only [npRepeat, List.flatMap_cons, List.length_cons, List.replicate_succ,
      List.flatten_cons] at ih ⊢
    rw [List.zipWith_append (by simp), ih]
    congr 1
    clear ih
    induction sub with
    | nil => simp
    | cons y ys ihy => simp [List.replicate_succ, ihy]

theorem cartesianCore_eq_prodRows (cast : α → α) (a : List α) (r : List (List α)) :
    cartesianCore cast (a :: r) = prodRows ((a :: r).map fun l => l.map cast) := by
  induction r generalizing a with
  | nil =>
    simp only [cartesianCore, List.map_cons, List.map_nil, prodRows_cons, prodRows_nil]
    cases a with
    | nil => simp [npRepeat]
    | cons x xs =>
      rw [Nat.div_self (by simp), npRepeat_one]
      simp only [List.flatMap_def, List.map_map]
      induction (x :: xs) with
      | nil => rfl
      | cons y ys ih => simp [ih]
  | cons b r ih =>
    simp only [cartesianCore]
    rw [ih b]
    have hlen : (prodRows ((b :: r).map fun l => l.map cast)).length
        = ((b :: r).map List.length).prod := by
      rw [length_prodRows, List.map_map]
      congr 1
      exact List.map_congr_left fun x _ => by simp
    cases a with
    | nil => simp [npRepeat]
    | cons x xs =>
      have : (((x :: xs) :: b :: r).map List.length).prod / (x :: xs).length
          = (prodRows ((b :: r).map fun l => l.map cast)).length := by
        rw [hlen, List.map_cons, List.prod_cons, Nat.mul_div_cancel_left]
        simp
      rw [this]
      have h2 := zipWith_repeat_tile (fun x r => x :: r) ((x :: xs).map cast)
        (prodRows ((b :: r).map fun l => l.map cast))
      rw [List.length_map] at h2
      rw [h2]
      simp

theorem cartesian_cons (a : List α) (r : List (List α)) :
    cartesian (a :: r) = .ok (prodRows (a :: r)) := by
  simp only [cartesian, cartesianCore_eq_prodRows]
  simp

theorem prodRows_append (l₁ l₂ : List (List α)) :
    prodRows (l₁ ++ l₂)
      = (prodRows l₁).flatMap fun x => (prodRows l₂).map fun y => x ++ y := by
  induction l₁ with
  | nil => simp
  | cons a r ih =>
    simp only [List.cons_append, prodRows_cons, ih, List.flatMap_assoc]
    congr 1
    funext x
    simp only [List.map_flatMap, List.flatMap_map, List.map_map, List.cons_append]
    rfl

/-- Element `i * m + j` of a concatenation of blocks of equal length `m`. -/
theorem getElem?_flatMap_block (a : List α) (f : α → List β) (m i j : ℕ)
    (hf : ∀ x ∈ a, (f x).length = m) (hj : j < m) :
    (a.flatMap f)[i * m + j]? = a[i]?.bind fun x => (f x)[j]? := by
  induction a generalizing i with
  | nil => simp
  | cons x xs ih =>
    have hx : (f x).length = m := hf x (by simp)
    cases i with
    | zero =>
      simp only [List.flatMap_cons, Nat.zero_mul, Nat.zero_add, List.getElem?_cons_zero,
        Option.bind_some]
      rw [List.getElem?_append_left (by omega)]
    | succ i =>
      simp only [List.flatMap_cons, List.getElem?_cons_succ]
      rw [List.getElem?_append_right (by rw [hx]; nlinarith), hx]
      have : (i + 1) * m + j - m = i * m + j := by
        have : (i + 1) * m = i * m + m := by ring
        omega
      rw [this]
      exact ih i fun y hy => hf y (by simp [hy])

end Dolo
