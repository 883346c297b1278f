import Mathlib.Algebra.Order.Ring.Rat
import Verif.Model.GridOps
import Verif.Props.Cartesian

/-!
# C141: operators on grids
-/

set_option linter.unusedSectionVars false

namespace Dolo

variable {K : Type} [Field K]

/-- **C141, the empty grid** is neutral on the left, for both operators. -/
theorem C141_empty_left (g : AnyGrid K) : AnyGrid.add .empty g = .ok g ∧ AnyGrid.mul .empty g = .ok g := ⟨rfl, rfl⟩

/-- **C141, the empty grid** is not neutral on the right: both operators raise an exception for all other grids. -/
theorem C141_empty_right_fails (g : AnyGrid K) (h : g ≠ .empty) :
    (∃ e, AnyGrid.add g .empty = .error e) ∧ ∃ e, AnyGrid.mul g .empty = .error e := by
  cases g <;> simp_all [AnyGrid.add, AnyGrid.mul, catGrids, AnyGrid.isCartesian]

/-- **C141, products.**  The product of two grids exists only if the first one is empty. -/
theorem C141_product_fails (g₁ g₂ g : AnyGrid K) : AnyGrid.mul g₁ g₂ = .ok g ↔ g₁ = .empty ∧ g = g₂ := by
  cases g₁ <;> cases g₂ <;> simp [AnyGrid.mul, catGrids, AnyGrid.isCartesian, eq_comm]

/-- **C141, sums.**  The sum of two grids which are not empty exists only for two grids of the same Cartesian class. -/
theorem C141_sum_classes (g₁ g₂ g : AnyGrid K) (h : AnyGrid.add g₁ g₂ = .ok g) (h₁ : g₁ ≠ .empty) :
    (∃ a b c, g₁ = .uniform a ∧ g₂ = .uniform b ∧ g = .uniform c) ∨
      ∃ a b c, g₁ = .nonUniform a ∧ g₂ = .nonUniform b ∧ g = .nonUniform c := by
  have aux : ∀ {α β : Type} {f : α → β} {x : Except Err α} {y : β}, x.map f = .ok y → ∃ c, y = f c := by
    intro α β f x y hxy
    cases x with
    | error e => cases hxy
    | ok v => exact ⟨v, by injection hxy with e; exact e.symm⟩
  cases g₁ <;> cases g₂ <;> simp only [AnyGrid.add, reduceCtorEq, ne_eq, not_true_eq_false] at h h₁
  · obtain ⟨c, rfl⟩ := aux h
    exact .inl ⟨_, _, c, rfl, rfl, rfl⟩
  · obtain ⟨c, rfl⟩ := aux h
    exact .inr ⟨_, _, c, rfl, rfl, rfl⟩

/-- **C141, sums** of non-uniform grids are the grids over the products, in row-major order. -/
theorem C141_sum_partial [LinearOrder K] [IsStrictOrderedRing K] (l₁ l₂ : List (List K)) (g₁ g₂ : NonUniformGrid K) (h₁ : NonUniformGrid.mk' l₁ = .ok g₁)
    (h₂ : NonUniformGrid.mk' l₂ = .ok g₂) :
    ∃ g : AnyGrid K, AnyGrid.add (.nonUniform g₁) (.nonUniform g₂) = .ok g ∧
      g.nNodes = (AnyGrid.nonUniform g₁).nNodes * (AnyGrid.nonUniform g₂).nNodes ∧
      ∀ i j x y, (AnyGrid.nonUniform g₁).node i = .ok (some x) → (AnyGrid.nonUniform g₂).node j = .ok (some y) →
        g.node (i * (AnyGrid.nonUniform g₂).nNodes + j) = .ok (some (x ++ y)) := by
  obtain ⟨g, e, -, h3, h4⟩ := C04_nonuniform_add l₁ l₂ g₁ g₂ h₁ h₂
  have key : ∀ (h : NonUniformGrid K) i x, (AnyGrid.nonUniform h).node i = .ok (some x) ↔ h.nodes[i]? = some x := by
    intro h i x
    simp only [AnyGrid.node, AnyGrid.nodes, pyGet]
    cases h.nodes[i]? <;> simp [Except.map]
  refine ⟨.nonUniform g, by simp [AnyGrid.add, e, Except.map], h3, fun i j x y hx hy => ?_⟩
  rw [key] at hx hy ⊢
  exact h4 i j x y hx hy

/-- **C141, nodes.**  For a grid which is neither empty nor a single point `node(i)` is the `i`-th row of `nodes` for `i` less
than `n_nodes`, and an `IndexError` for greater ones. -/
theorem C141_node_partial (g : AnyGrid K) (h₁ : g ≠ .empty) (h₂ : ∀ p, g ≠ .point p) :
    ∃ l, g.nodes = some l ∧ g.nNodes = l.length ∧ (∀ i (hi : i < g.nNodes), g.node i = .ok l[i]?) ∧
      ∀ i, g.nNodes ≤ i → g.node i = .error .indexError := by
  have main : ∀ (g : AnyGrid K) (l : List (List K)), g.nodes = some l → g.nNodes = l.length →
      ∃ l, g.nodes = some l ∧ g.nNodes = l.length ∧ (∀ i (hi : i < g.nNodes), g.node i = .ok l[i]?) ∧
      ∀ i, g.nNodes ≤ i → g.node i = .error .indexError := by
    intro g l h h'
    refine ⟨l, h, h', fun i hi => ?_, fun i hi => ?_⟩
    · rw [h'] at hi
      simp [AnyGrid.node, h, pyGet, hi, Except.map]
    · rw [h'] at hi
      simp [AnyGrid.node, h, pyGet, hi, Except.map]
  cases g with
  | empty => exact absurd rfl h₁
  | point p => exact absurd rfl (h₂ p)
  | unstructured l => exact main _ l rfl rfl
  | uniform g => exact main _ g.nodes rfl rfl
  | nonUniform g => exact main _ g.nodes rfl rfl
  | smolyak l => exact main _ l rfl rfl

/-- **C141, a single point.**  The grid says it has one node, but `node(0)` is `None`. -/
theorem C141_point_fails (p : List K) : (AnyGrid.point p).nNodes = 1 ∧ (AnyGrid.point p).node 0 = .ok none := ⟨rfl, rfl⟩

/-- Two grids in dimension one and their sum. -/
example : ∃ g₁ g₂ : NonUniformGrid ℚ, NonUniformGrid.mk' [[0, 1]] = .ok g₁ ∧ NonUniformGrid.mk' [[5, 6, 8]] = .ok g₂ ∧
    (AnyGrid.add (.nonUniform g₁) (.nonUniform g₂)).map AnyGrid.nNodes = .ok 6 ∧
    (AnyGrid.nonUniform g₂).node 2 = .ok (some [8]) ∧ AnyGrid.nonUniform g₁ ≠ .empty :=
  ⟨_, _, rfl, rfl, rfl, rfl, fun h => nomatch h⟩

end Dolo
