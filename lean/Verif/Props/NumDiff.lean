import Mathlib.Algebra.BigOperators.Ring.Finset
import Mathlib.Analysis.Calculus.Deriv.Slope
import Mathlib.Analysis.Calculus.Deriv.Comp
import Mathlib.Analysis.Calculus.Deriv.Mul
import Mathlib.Analysis.Calculus.Deriv.Add
import Mathlib.Analysis.Calculus.Deriv.Pow
import Mathlib.Data.Rat.Defs
import Mathlib.Algebra.Field.Rat
import Mathlib.Tactic.Ring
import Mathlib.Tactic.FieldSimp
import Mathlib.Tactic.LinearCombination
import Verif.Model.NumDiff

/-!
# C55: finite differences
-/

set_option linter.unusedSectionVars false

namespace Dolo

variable {K : Type} [Field K]

/-! ## The specification -/

/-- The vector `x` with `s` added to its `i`-th component. -/
def bump (x : List K) (i : ℕ) (s : K) : List K := x.modify i (· + s)

/-- `g` is a polynomial of degree at most two, with linear coefficient `d` (its derivative
at 0). -/
def IsQuad (g : K → K) (d : K) : Prop := ∃ a c, ∀ s, g s = a + d * s + c * s ^ 2

/-- `g` is affine, with slope `d`. -/
def IsAff (g : K → K) (d : K) : Prop := ∃ a, ∀ s, g s = a + d * s

theorem IsQuad.central (g : K → K) (d : K) (h : IsQuad g d) (eps : K) (he : eps ≠ 0)
    (h2 : (2 : K) ≠ 0) : (g eps - g (-eps)) / eps / 2 = d := by
  obtain ⟨a, c, hg⟩ := h
  rw [hg, hg]
  field_simp
  ring

theorem IsAff.forward (g : K → K) (d : K) (h : IsAff g d) (eps : K) (he : eps ≠ 0) :
    (g eps - g 0) / eps = d := by
  obtain ⟨a, hg⟩ := h
  rw [hg, hg]
  field_simp
  ring

/-! ## MyJacobian -/

theorem zip_delta_add (x : List K) (i : ℕ) (s : K) :
    List.zipWith (· + ·) x (deltaVec x.length i s) = bump x i s := by
  apply List.ext_getElem
  · simp [deltaVec, bump]
  · intro k h1 h2
    simp only [deltaVec, bump, List.getElem_zipWith, List.getElem_set, List.getElem_replicate,
      List.getElem_modify]
    split <;> simp

theorem zip_delta_sub (x : List K) (i : ℕ) (s : K) :
    List.zipWith (· - ·) x (deltaVec x.length i s) = bump x i (-s) := by
  apply List.ext_getElem
  · simp [deltaVec, bump]
  · intro k h1 h2
    simp only [deltaVec, bump, List.getElem_zipWith, List.getElem_set, List.getElem_replicate,
      List.getElem_modify]
    split <;> simp [sub_eq_add_neg]

theorem myJacobianLoop_ok (f : List K → List K) (eps : K) (x : List K) (is : List ℕ) (D : Arr2 K)
    (hlen : ∀ z, z.length = x.length → (f z).length = D.n) :
    ∃ D', myJacobianLoop f eps x is D = .ok D' ∧ D'.n = D.n ∧ D'.m = D.m ∧
      ∀ j i, D'.val j i = if i ∈ is then
        ((f (bump x i eps)).getD j 0 - (f (bump x i (-eps))).getD j 0) / eps / 2
        else D.val j i := by
  induction is generalizing D with
  | nil => exact ⟨D, rfl, rfl, rfl, by simp⟩
  | cons a is ih =>
    simp only [myJacobianLoop, zip_delta_add, zip_delta_sub]
    rw [if_pos ⟨hlen _ (by simp [bump]), hlen _ (by simp [bump])⟩]
    obtain ⟨D', h1, h2, h3, h4⟩ := ih ⟨D.n, D.m, fun j i' =>
      if i' = a then ((f (bump x a eps)).getD j 0 - (f (bump x a (-eps))).getD j 0) / eps / 2
      else D.val j i'⟩ hlen
    refine ⟨D', h1, h2, h3, ?_⟩
    intro j i
    rw [h4]
    by_cases hi : i ∈ is
    · simp [hi]
    · by_cases hia : i = a
      · subst hia; simp [hi]
      · simp [hi, hia]

/-- **C55** (MyJacobian, shape and places).  For a function with values of a fixed length, entry
`[j, i]` of the matrix is the central difference of the `j`-th value in the `i`-th component. -/
theorem myJacobian_entries (f : List K → List K) (eps : K) (x : List K)
    (hlen : ∀ z, z.length = x.length → (f z).length = (f x).length) :
    ∃ D, myJacobian f eps x = .ok D ∧ D.n = (f x).length ∧ D.m = x.length ∧
      ∀ j, ∀ i < x.length, D.val j i =
        ((f (bump x i eps)).getD j 0 - (f (bump x i (-eps))).getD j 0) / eps / 2 := by
  obtain ⟨D, h1, h2, h3, h4⟩ := myJacobianLoop_ok f eps x (List.range x.length)
    ⟨(f x).length, x.length, fun _ _ => 0⟩ hlen
  refine ⟨D, h1, h2, h3, ?_⟩
  intro j i hi
  rw [h4, if_pos (List.mem_range.2 hi)]

/-- **C55** (central differences).  For every function whose values are quadratic in each
component, every number of components and values, every point and every nonzero step, `MyJacobian`
returns the matrix of partial derivatives, with the derivative of the `j`-th value in the `i`-th
component in row `j` and column `i`. -/
theorem C55_central_exact (f : List K → List K) (eps : K) (he : eps ≠ 0) (h2 : (2 : K) ≠ 0)
    (x : List K) (hlen : ∀ z, z.length = x.length → (f z).length = (f x).length)
    (d : ℕ → ℕ → K)
    (hd : ∀ j < (f x).length, ∀ i < x.length,
      IsQuad (fun s => (f (bump x i s)).getD j 0) (d j i)) :
    ∃ D, myJacobian f eps x = .ok D ∧ D.n = (f x).length ∧ D.m = x.length ∧
      ∀ j < (f x).length, ∀ i < x.length, D.val j i = d j i := by
  obtain ⟨D, h1, h3, h4, h5⟩ := myJacobian_entries f eps x hlen
  refine ⟨D, h1, h3, h4, ?_⟩
  intro j hj i hi
  rw [h5 j i hi]
  exact IsQuad.central _ _ (hd j hj i hi) eps he h2

/-- A quadratic map: value `j` is `c j + ∑ B j a x_a + ∑ A j a b x_a x_b`. -/
def quadMap (n m : ℕ) (c : ℕ → K) (B : ℕ → ℕ → K) (A : ℕ → ℕ → ℕ → K) (x : List K) : List K :=
  (List.range m).map fun j => c j + ∑ a ∈ Finset.range n, B j a * x.getD a 0 +
    ∑ a ∈ Finset.range n, ∑ b ∈ Finset.range n, A j a b * x.getD a 0 * x.getD b 0

theorem bump_getD (x : List K) (i a : ℕ) (s : K) (hi : i < x.length) :
    (bump x i s).getD a 0 = x.getD a 0 + if a = i then s else 0 := by
  unfold bump
  by_cases ha : a < x.length
  · by_cases hai : i = a
    · subst hai; simp [ha]
    · have : ¬ a = i := fun h => hai h.symm
      simp [ha, hai, this]
  · have : ¬ a = i := by omega
    simp [ha, this]

/-- **C55** (central differences, explicit).  For every quadratic map in any number of variables
the result is its Jacobian `B j i + ∑ (A j i b + A j b i) x_b`. -/
theorem C55_quadratic_map (n m : ℕ) (c : ℕ → K) (B : ℕ → ℕ → K) (A : ℕ → ℕ → ℕ → K) (eps : K)
    (he : eps ≠ 0) (h2 : (2 : K) ≠ 0) (x : List K) (hx : x.length = n) :
    ∃ D, myJacobian (quadMap n m c B A) eps x = .ok D ∧ D.n = m ∧ D.m = n ∧
      ∀ j < m, ∀ i < n, D.val j i =
        B j i + ∑ b ∈ Finset.range n, (A j i b + A j b i) * x.getD b 0 := by
  subst hx
  have hl : ∀ z, (quadMap x.length m c B A z).length = m := by simp [quadMap]
  obtain ⟨D, h1, h3, h4, h5⟩ := C55_central_exact (quadMap x.length m c B A) eps he h2 x
    (fun z _ => by rw [hl, hl])
    (fun j i => B j i + ∑ b ∈ Finset.range x.length, (A j i b + A j b i) * x.getD b 0) (by
      intro j hj i hi
      rw [hl] at hj
      refine ⟨c j + ∑ a ∈ Finset.range x.length, B j a * x.getD a 0 +
        ∑ a ∈ Finset.range x.length, ∑ b ∈ Finset.range x.length,
          A j a b * x.getD a 0 * x.getD b 0, A j i i, ?_⟩
      intro s
      have hj' : (quadMap x.length m c B A (bump x i s)).getD j 0 =
          c j + ∑ a ∈ Finset.range x.length, B j a * (bump x i s).getD a 0 +
          ∑ a ∈ Finset.range x.length, ∑ b ∈ Finset.range x.length,
            A j a b * (bump x i s).getD a 0 * (bump x i s).getD b 0 := by
        simp [quadMap, hj]
      simp only [hj']
      simp only [bump_getD x i _ s hi]
      have e1 : ∀ g : ℕ → K, ∑ a ∈ Finset.range x.length, g a * (if a = i then s else 0) =
          g i * s := by
        intro g
        rw [Finset.sum_eq_single i]
        · simp
        · intro b _ hb; simp [hb]
        · intro hn; exact absurd (Finset.mem_range.2 hi) hn
      have e2 : ∑ a ∈ Finset.range x.length, B j a * (x.getD a 0 + if a = i then s else 0) =
          ∑ a ∈ Finset.range x.length, B j a * x.getD a 0 + B j i * s := by
        rw [← e1 (B j), ← Finset.sum_add_distrib]
        exact Finset.sum_congr rfl fun a _ => by ring
      have e3 : ∑ a ∈ Finset.range x.length, ∑ b ∈ Finset.range x.length,
          A j a b * (x.getD a 0 + if a = i then s else 0) * (x.getD b 0 + if b = i then s else 0) =
          ∑ a ∈ Finset.range x.length, ∑ b ∈ Finset.range x.length,
            A j a b * x.getD a 0 * x.getD b 0 +
          (∑ b ∈ Finset.range x.length, (A j i b + A j b i) * x.getD b 0) * s +
          A j i i * s ^ 2 := by
        have inner : ∀ a, ∑ b ∈ Finset.range x.length,
            A j a b * (x.getD a 0 + if a = i then s else 0) *
              (x.getD b 0 + if b = i then s else 0) =
            ∑ b ∈ Finset.range x.length, A j a b * x.getD a 0 * x.getD b 0 +
            A j a i * x.getD a 0 * s +
            (∑ b ∈ Finset.range x.length, A j a b * x.getD b 0 + A j a i * s) *
              (if a = i then s else 0) := by
          intro a
          have := e1 (fun b => A j a b * (x.getD a 0 + if a = i then s else 0))
          calc _ = ∑ b ∈ Finset.range x.length, A j a b * x.getD a 0 * x.getD b 0 +
                (∑ b ∈ Finset.range x.length, A j a b * x.getD b 0) * (if a = i then s else 0) +
                ∑ b ∈ Finset.range x.length, A j a b * (x.getD a 0 + if a = i then s else 0) *
                  (if b = i then s else 0) := by
                rw [Finset.sum_mul, ← Finset.sum_add_distrib, ← Finset.sum_add_distrib]
                exact Finset.sum_congr rfl fun b _ => by ring
            _ = _ := by rw [this]; ring
        simp only [inner]
        rw [Finset.sum_add_distrib, Finset.sum_add_distrib,
          e1 (fun a => ∑ b ∈ Finset.range x.length, A j a b * x.getD b 0 + A j a i * s)]
        have e4 : ∑ b ∈ Finset.range x.length, (A j i b + A j b i) * x.getD b 0 =
            ∑ b ∈ Finset.range x.length, A j i b * x.getD b 0 +
            ∑ b ∈ Finset.range x.length, A j b i * x.getD b 0 := by
          rw [← Finset.sum_add_distrib]
          exact Finset.sum_congr rfl fun b _ => by ring
        rw [e4, ← Finset.sum_mul]
        ring
      rw [e2, e3]
      ring)
  rw [hl] at h3 h5
  exact ⟨D, h1, h3, h4, h5⟩

/-- **C55** (any differentiable function).  Over the reals, for every function that is
differentiable in each component, the entries of `MyJacobian` tend to the partial derivatives as
the step tends to zero. -/
theorem C55_central_limit (f : List ℝ → List ℝ) (x : List ℝ)
    (hlen : ∀ z, z.length = x.length → (f z).length = (f x).length) (j i : ℕ)
    (hi : i < x.length) (d : ℝ)
    (hd : HasDerivAt (fun s => (f (bump x i s)).getD j 0) d 0) (D : ℝ → Arr2 ℝ)
    (hD : ∀ eps, myJacobian f eps x = .ok (D eps)) :
    Filter.Tendsto (fun eps => (D eps).val j i) (nhdsWithin 0 {0}ᶜ) (nhds d) := by
  set g : ℝ → ℝ := fun s => (f (bump x i s)).getD j 0 with hg
  have hent : ∀ eps, (D eps).val j i = (g eps - g (-eps)) / eps / 2 := by
    intro eps
    obtain ⟨D', h1, -, -, h4⟩ := myJacobian_entries f eps x hlen
    rw [hD] at h1
    cases h1
    exact h4 j i hi
  have hneg : HasDerivAt (fun s => g (-s)) (-d) 0 := by
    have h0 : HasDerivAt (fun s : ℝ => -s) (-1) 0 := (hasDerivAt_id (0 : ℝ)).neg
    have hd' : HasDerivAt g d (-(0 : ℝ)) := by rw [neg_zero]; exact hd
    have := HasDerivAt.comp (0 : ℝ) hd' h0
    rw [mul_neg_one] at this
    exact this
  have hsub := hd.sub hneg
  rw [hasDerivAt_iff_tendsto_slope] at hsub
  have := hsub.div_const 2
  rw [show (d - -d) / 2 = d by ring] at this
  refine this.congr ?_
  intro eps
  rw [hent]
  simp only [slope, vsub_eq_sub, Pi.sub_apply, neg_zero, sub_self, sub_zero, smul_eq_mul]
  rw [div_eq_inv_mul (g eps - g (-eps)) eps]

/-! ## SerialDifferentiableFunction -/

theorem serialDiffLoop_spec (f : List (List K) → List (List K)) (eps : K) (X V0 : List (List K))
    (is : List ℕ) (D : Arr3 K) :
    let D' := serialDiffLoop f eps X V0 is D
    D'.n = D.n ∧ D'.m = D.m ∧ D'.l = D.l ∧ ∀ n j i, D'.val n j i = if i ∈ is then
      (rowAt (f (shiftCol i eps X)) n j - rowAt V0 n j) / eps else D.val n j i := by
  induction is generalizing D with
  | nil => simp [serialDiffLoop]
  | cons a is ih =>
    obtain ⟨h1, h2, h3, h4⟩ := ih { D with val := fun n j i' =>
      if i' = a then (rowAt (f (shiftCol a eps X)) n j - rowAt V0 n j) / eps else D.val n j i' }
    refine ⟨h1, h2, h3, ?_⟩
    intro n j i
    simp only [serialDiffLoop]
    rw [h4]
    by_cases hi : i ∈ is
    · simp [hi]
    · by_cases hia : i = a
      · subst hia; simp [hi]
      · simp [hi, hia]

/-- A function that treats every point (row) by itself; the function may depend on the point. -/
def rowwise (φ : ℕ → List K → List K) (X : List (List K)) : List (List K) := X.mapIdx φ

theorem rowAt_rowwise (φ : ℕ → List K → List K) (X : List (List K)) (n j : ℕ) (row : List K)
    (h : X[n]? = some row) : rowAt (rowwise φ X) n j = (φ n row).getD j 0 := by
  simp [rowAt, rowwise, h]

theorem shiftCol_zero (i : ℕ) (X : List (List K)) : shiftCol i (0 : K) X = X := by
  unfold shiftCol
  conv_rhs => rw [← List.map_id X]
  apply List.map_congr_left
  intro row _
  apply List.ext_getElem
  · simp
  · intro k h1 h2
    simp [List.getElem_modify]

theorem bump_zero (x : List K) (i : ℕ) : bump x i (0 : K) = x := by
  unfold bump
  apply List.ext_getElem
  · simp
  · intro k h1 h2
    simp [List.getElem_modify]

/-- **C55** (forward differences, vectorised).  For a function that acts point by point and is
affine in each component, `SerialDifferentiableFunction` returns the value and, at `[n, j, i]`,
the derivative of value `j` of point `n` in component `i`: perturbing all points at once does not
mix them. -/
theorem C55_serial_exact (φ : ℕ → List K → List K) (eps : K) (he : eps ≠ 0) (X : List (List K))
    (nx nv : ℕ) (hpos : X ≠ []) (hX : ∀ row ∈ X, row.length = nx)
    (hφ : ∀ n z, z.length = nx → (φ n z).length = nv) (d : ℕ → ℕ → ℕ → K)
    (hd : ∀ n row, X[n]? = some row → ∀ j < nv, ∀ i < nx,
      IsAff (fun s => (φ n (bump row i s)).getD j 0) (d n j i)) :
    ∃ D, serialDiff (rowwise φ) eps X = .ok (rowwise φ X, D) ∧
      D.n = X.length ∧ D.m = nv ∧ D.l = nx ∧
      ∀ n < X.length, ∀ j < nv, ∀ i < nx, D.val n j i = d n j i := by
  have hlen : (rowwise φ X).length = X.length := by simp [rowwise]
  have hX0 : (X.getD 0 []).length = nx := by
    rcases X with _ | ⟨r, X⟩
    · exact absurd rfl hpos
    · exact hX r List.mem_cons_self
  have hV0 : ((rowwise φ X).getD 0 []).length = nv := by
    rcases X with _ | ⟨r, X⟩
    · exact absurd rfl hpos
    · simp only [rowwise, List.mapIdx_cons, List.getD_cons_zero]
      exact hφ 0 r (hX r List.mem_cons_self)
  unfold serialDiff
  rw [if_pos hlen.symm]
  refine ⟨_, rfl, ?_⟩
  obtain ⟨h1, h2, h3, h4⟩ := serialDiffLoop_spec (rowwise φ) eps X (rowwise φ X)
    (List.range (X.getD 0 []).length)
    ⟨(rowwise φ X).length, ((rowwise φ X).getD 0 []).length, (X.getD 0 []).length, fun _ _ _ => 0⟩
  refine ⟨h1.trans hlen, h2.trans hV0, h3.trans hX0, ?_⟩
  intro n hn j hj i hi
  rw [h4, if_pos (List.mem_range.2 (hX0 ▸ hi))]
  have hrow : X[n]? = some X[n] := List.getElem?_eq_getElem hn
  have hrow' : (shiftCol i eps X)[n]? = some (bump X[n] i eps) := by
    simp [shiftCol, hn, bump]
  rw [rowAt_rowwise φ _ n j _ hrow', rowAt_rowwise φ _ n j _ hrow]
  have := IsAff.forward _ _ (hd n X[n] hrow j hj i hi) eps he
  rwa [bump_zero] at this

/-! ## numdiff of compiler/misc.py -/

theorem numdiffCols_error (f : List (List (List K)) → List (List K)) (eps : K)
    (args : List (List (List K))) (V0 : List (List K)) (i : ℕ) (js : List ℕ) (D : Arr3 K)
    (hjs : js ≠ []) (h1 : (V0.getD 0 []).length ≠ D.m) (h2 : (V0.getD 0 []).length ≠ 1) :
    numdiffCols f eps args V0 i js D = .error .valueError := by
  rcases js with _ | ⟨j, js⟩
  · exact absurd rfl hjs
  · simp only [numdiffCols, if_neg h1, if_neg h2]

/-- **C55 fails for `numdiff`** (the `diff=True` path of compiled functions): whenever the number
of values per point is neither one nor the number of points, the call raises, whatever the
function. -/
theorem C55_numdiff_fails (f : List (List (List K)) → List (List K)) (eps : K)
    (a : List (List K)) (args : List (List (List K))) (N nv : ℕ)
    (hN : (f (a :: args)).length = N) (hnv : ((f (a :: args)).getD 0 []).length = nv)
    (ha : (a.getD 0 []).length ≠ 0) (h1 : nv ≠ N) (h2 : nv ≠ 1) :
    numdiff f eps (a :: args) = .error .valueError := by
  have hr : List.range (a :: args).length = 0 :: (List.range args.length).map (· + 1) := by
    rw [List.length_cons, List.range_succ_eq_map]
  simp only [numdiff, hr, numdiffArgs, List.getD_cons_zero]
  rw [numdiffCols_error f eps (a :: args) (f (a :: args)) 0 (List.range (a.getD 0 []).length)
    ⟨(f (a :: args)).length, (f (a :: args)).length, (a.getD 0 []).length, fun _ _ _ => 0⟩
    (by simpa using ha) (by rw [hnv, hN]; exact h1) (by rw [hnv]; exact h2)]
  rfl

theorem numdiffCols_ok (f : List (List (List K)) → List (List K)) (eps : K)
    (args : List (List (List K))) (V0 : List (List K)) (i : ℕ) (js : List ℕ) (D : Arr3 K)
    (h : (V0.getD 0 []).length = D.m) :
    ∃ D', numdiffCols f eps args V0 i js D = .ok D' ∧ D'.n = D.n ∧ D'.m = D.m ∧ D'.l = D.l ∧
      ∀ n k j, D'.val n k j = if j ∈ js then
        (rowAt (f (args.modify i (shiftCol j eps))) n k - rowAt V0 n k) / eps
        else D.val n k j := by
  induction js generalizing D with
  | nil => exact ⟨D, rfl, rfl, rfl, rfl, by simp⟩
  | cons a js ih =>
    simp only [numdiffCols, if_pos h]
    obtain ⟨D', h1, h2, h3, h4, h5⟩ := ih ⟨D.n, D.m, D.l, fun n k j' =>
      if j' = a then (rowAt (f (args.modify i (shiftCol a eps))) n k - rowAt V0 n k) / eps
      else D.val n k j'⟩ h
    refine ⟨D', h1, h2, h3, h4, ?_⟩
    intro n k j
    rw [h5]
    by_cases hj : j ∈ js
    · simp [hj]
    · by_cases hja : j = a
      · subst hja; simp [hj]
      · simp [hj, hja]

/-- **C55** (`numdiff`, partial: only when there are as many values as points).  Then the list
contains, for every argument `i`, the array of forward differences: exact when the values are
affine in each column of that argument. -/
theorem C55_numdiff_square_partial (f : List (List (List K)) → List (List K)) (eps : K)
    (he : eps ≠ 0) (args : List (List (List K))) (V0 : List (List K)) (hV0 : f args = V0)
    (hsq : (V0.getD 0 []).length = V0.length) (d : ℕ → ℕ → ℕ → ℕ → K)
    (hd : ∀ i < args.length, ∀ n < V0.length, ∀ k < V0.length,
      ∀ j < ((args.getD i []).getD 0 []).length,
      IsAff (fun s => rowAt (f (args.modify i (shiftCol j s))) n k) (d i n k j)) :
    ∃ ds, numdiff f eps args = .ok (V0, ds) ∧ ds.length = args.length ∧
      ∀ i < args.length, ∃ D : Arr3 K, ds[i]? = some D ∧ D.n = V0.length ∧ D.m = V0.length ∧
        D.l = ((args.getD i []).getD 0 []).length ∧
        ∀ n < V0.length, ∀ k < V0.length, ∀ j < ((args.getD i []).getD 0 []).length,
          D.val n k j = d i n k j := by
  have key : ∀ is : List ℕ, ∃ ds, numdiffArgs f eps args V0 is = .ok ds ∧ ds.length = is.length ∧
      ∀ p i : ℕ, is[p]? = some i → i < args.length → ∃ D : Arr3 K, ds[p]? = some D ∧ D.n = V0.length ∧
        D.m = V0.length ∧ D.l = ((args.getD i []).getD 0 []).length ∧
        ∀ n < V0.length, ∀ k < V0.length, ∀ j < ((args.getD i []).getD 0 []).length,
          D.val n k j = d i n k j := by
    intro is
    induction is with
    | nil => exact ⟨[], rfl, rfl, by simp⟩
    | cons i is ih =>
      obtain ⟨ds, h1, h2, h3⟩ := ih
      obtain ⟨D, g1, g2, g3, g4, g5⟩ := numdiffCols_ok f eps args V0 i
        (List.range ((args.getD i []).getD 0 []).length)
        ⟨V0.length, V0.length, ((args.getD i []).getD 0 []).length, fun _ _ _ => 0⟩ hsq
      refine ⟨D :: ds, ?_, by simp [h2], ?_⟩
      · simp only [numdiffArgs, g1, h1]
        rfl
      · intro p i' hp hi'
        rcases p with _ | p
        · simp only [List.getElem?_cons_zero, Option.some.injEq] at hp
          subst hp
          refine ⟨D, by simp, g2, g3, g4, ?_⟩
          intro n hn k hk j hj
          rw [g5, if_pos (List.mem_range.2 hj)]
          have := IsAff.forward _ _ (hd i hi' n hn k hk j hj) eps he
          have hz : args.modify i (shiftCol j (0 : K)) = args := by
            apply List.ext_getElem
            · simp
            · intro q q1 q2
              rw [List.getElem_modify]
              split
              · rw [shiftCol_zero]
              · rfl
          rwa [hz, hV0] at this
        · obtain ⟨D', e1, e2⟩ := h3 p i' (by simpa using hp) hi'
          exact ⟨D', by simpa using e1, e2⟩
  obtain ⟨ds, h1, h2, h3⟩ := key (List.range args.length)
  refine ⟨ds, ?_, by simpa using h2, ?_⟩
  · simp only [numdiff, hV0, h1]
    rfl
  · intro i hi
    exact h3 i i (by simp [hi]) hi

/-! ## numdiff1 -/

theorem mem_indexProduct (dd ind : List ℕ) :
    ind ∈ indexProduct dd ↔ List.Forall₂ (· < ·) ind dd := by
  induction dd generalizing ind with
  | nil => simp [indexProduct]
  | cons d dd ih =>
    simp only [indexProduct, List.mem_flatMap, List.mem_range, List.mem_map]
    constructor
    · rintro ⟨i, hi, r, hr, rfl⟩
      exact List.Forall₂.cons hi ((ih r).1 hr)
    · intro h
      rcases h with _ | ⟨hi, hr⟩
      exact ⟨_, hi, _, (ih _).2 hr, rfl⟩

theorem numdiff1Loop_spec (f : ObsArr K → ObsArr K) (dv : K) (x0 : ObsArr K)
    (inds : List (List ℕ)) (ret : List ℕ → List ℕ → ℕ → K) (k a : List ℕ) (o : ℕ) :
    numdiff1Loop f dv x0 inds ret k a o = if a ∈ inds then
      (f (fun b p => if b = a then x0 b p + dv else x0 b p) k o -
        f (fun b p => if b = a then x0 b p - dv else x0 b p) k o) / dv / 2
      else ret k a o := by
  induction inds generalizing ret with
  | nil => simp [numdiff1Loop]
  | cons c inds ih =>
    simp only [numdiff1Loop]
    rw [ih]
    by_cases ha : a ∈ inds
    · simp [ha]
    · by_cases hac : a = c
      · subst hac; simp [ha]
      · simp [ha, hac]

/-- **C55** (numdiff1).  For an argument of any shape `dd + (nobs,)`, and values that are quadratic
when the component `ind` is shifted in all observations at once, `numdiff1` returns at
`[..., ind, o]` the derivative in that component, for every `ind` of the shape `dd`. -/
theorem C55_numdiff1_exact (f : ObsArr K → ObsArr K) (dv : K) (hdv : dv ≠ 0) (h2 : (2 : K) ≠ 0)
    (dd : List ℕ) (nobs : ℕ) (x0 : ObsArr K) (d : List ℕ → List ℕ → ℕ → K)
    (hd : ∀ k ind o, List.Forall₂ (· < ·) ind dd →
      IsQuad (fun s => f (fun b p => if b = ind then x0 b p + s else x0 b p) k o) (d k ind o)) :
    ∃ ret, numdiff1 f dv dd nobs nobs x0 = .ok ret ∧
      ∀ k ind o, List.Forall₂ (· < ·) ind dd → ret k ind o = d k ind o := by
  refine ⟨_, if_pos rfl, ?_⟩
  intro k ind o hind
  rw [numdiff1Loop_spec, if_pos ((mem_indexProduct dd ind).2 hind)]
  have := IsQuad.central _ _ (hd k ind o hind) dv hdv h2
  simpa [sub_eq_add_neg] using this

/-! ## numdiff2 -/

theorem numdiff2Loop_tuple (f : (List ℕ → K) → ObsArr K) (dv : K) (x0 : List ℕ → K)
    (inds : List (List ℕ)) (ret : List ℕ → List ℕ → ℕ → K) :
    ∃ R, numdiff2Loop ItemKey.tuple f dv x0 inds ret = .ok R ∧ ∀ k a o, R k a o = if a ∈ inds then
      (f (fun b => if b = a then x0 b + dv else x0 b) k o -
        f (fun b => if b = a then x0 b - dv else x0 b) k o) / dv / 2
      else ret k a o := by
  induction inds generalizing ret with
  | nil => exact ⟨ret, rfl, by simp⟩
  | cons c inds ih =>
    obtain ⟨R, h1, h2⟩ := ih fun k a o => if a = c then
      (f (fun b => if b = c then x0 b + dv else x0 b) k o -
        f (fun b => if b = c then x0 b - dv else x0 b) k o) / dv / 2 else ret k a o
    refine ⟨R, h1, ?_⟩
    intro k a o
    rw [h2]
    by_cases ha : a ∈ inds
    · simp [ha]
    · by_cases hac : a = c
      · subst hac; simp [ha]
      · simp [ha, hac]

/-- **C55** (numdiff2 raises).  At every point with at least one component (no dimension is zero),
`numdiff2` raises, for every function and step. -/
theorem C55_numdiff2_fails (f : (List ℕ → K) → ObsArr K) (dv : K) (dd : List ℕ) (x0 : List ℕ → K)
    (hdd : ∀ d ∈ dd, 0 < d) : numdiff2 f dv dd x0 = .error .indexError := by
  have hmem : List.replicate dd.length 0 ∈ indexProduct dd := by
    rw [mem_indexProduct, List.forall₂_iff_get]
    refine ⟨by simp, ?_⟩
    intro i h1 h2
    simpa using hdd _ (List.get_mem dd ⟨i, h2⟩)
  unfold numdiff2 numdiff2With
  cases h : indexProduct dd with
  | nil => rw [h] at hmem; simp at hmem
  | cons ind inds => rfl

/-- **C55** (numdiff2 with a tuple).  With `obj = tuple(obj)` (line 60) restored, `numdiff2` returns at
`[..., ind, o]` the derivative in the component `ind`, for values that are quadratic in it. -/
theorem C55_numdiff2_tuple_partial (f : (List ℕ → K) → ObsArr K) (dv : K) (hdv : dv ≠ 0)
    (h2 : (2 : K) ≠ 0) (dd : List ℕ) (x0 : List ℕ → K) (d : List ℕ → List ℕ → ℕ → K)
    (hd : ∀ k ind o, List.Forall₂ (· < ·) ind dd →
      IsQuad (fun s => f (fun b => if b = ind then x0 b + s else x0 b) k o) (d k ind o)) :
    ∃ ret, numdiff2With ItemKey.tuple f dv dd x0 = .ok ret ∧
      ∀ k ind o, List.Forall₂ (· < ·) ind dd → ret k ind o = d k ind o := by
  obtain ⟨R, h1, h3⟩ := numdiff2Loop_tuple f dv x0 (indexProduct dd) fun _ _ _ => 0
  refine ⟨R, h1, ?_⟩
  intro k ind o hind
  rw [h3, if_pos ((mem_indexProduct dd ind).2 hind)]
  have := IsQuad.central _ _ (hd k ind o hind) dv hdv h2
  simpa [sub_eq_add_neg] using this

/-! ## Non-vacuity -/

/-- The sum of squares of a 2 × 2 matrix: `numdiff2` raises. -/
example : numdiff2 (fun x _ _ => x [0, 0] ^ 2 + x [0, 1] ^ 2 + x [1, 0] ^ 2 + x [1, 1] ^ 2)
    (1 / 8 : ℚ) [2, 2] (fun _ => 1) = .error .indexError :=
  C55_numdiff2_fails _ _ _ _ (by decide)

/-- With a tuple, the derivative of `x[0]² + o x[1]` at observation `o`. -/
example : ∃ ret, numdiff2With ItemKey.tuple (fun x _ o => x [0] ^ 2 + (o : ℚ) * x [1]) (1 / 8) [2]
    (fun _ => 3) = .ok ret ∧ ret [] [0] 5 = 6 ∧ ret [] [1] 5 = 5 := by
  obtain ⟨R, h1, h2⟩ := numdiff2Loop_tuple (fun x _ o => x [0] ^ 2 + (o : ℚ) * x [1]) (1 / 8)
    (fun _ => 3) (indexProduct [2]) fun _ _ _ => 0
  refine ⟨R, h1, ?_, ?_⟩
  · rw [h2, if_pos (by decide)]; norm_num
  · rw [h2, if_pos (by decide)]; norm_num

/-- A quadratic map of three variables with two values, at a point, with step 1/2. -/
example : ∃ D, myJacobian (quadMap 3 2 (fun j => (j : ℚ)) (fun j a => (j : ℚ) + 2 * a)
    (fun j a b => (j : ℚ) + a - b * a)) (1 / 2) [1, 2, 3] = .ok D ∧ D.n = 2 ∧ D.m = 3 ∧
    ∀ j < 2, ∀ i < 3, D.val j i = ((j : ℚ) + 2 * i) + ∑ b ∈ Finset.range 3,
      (((j : ℚ) + i - b * i) + ((j : ℚ) + b - i * b)) * [(1 : ℚ), 2, 3].getD b 0 :=
  C55_quadratic_map 3 2 _ _ _ (1 / 2) (by norm_num) (by norm_num) [1, 2, 3] rfl

/-- A cubic: the central difference is off, so that the theorem does need its hypothesis. -/
example : ∃ D, myJacobian (fun x => x.map (· ^ 3)) (1 / 2 : ℚ) [0] = .ok D ∧ D.val 0 0 = 1 / 4 := by
  refine ⟨_, rfl, ?_⟩
  decide +kernel

/-- Three points with two values each: `numdiff` raises for the identity. -/
example : numdiff (fun args => args.getD 0 []) (1 / 8 : ℚ) [[[1, 2], [3, 4], [5, 6]]] =
    .error .valueError :=
  C55_numdiff_fails _ _ _ _ 3 2 rfl rfl (by decide) (by decide) (by decide)

/-- Two points with their own slopes: `φ n row = [n * row_0 + row_1]`. -/
example : ∃ D, serialDiff (rowwise fun n row => [(n : ℚ) * row.getD 0 0 + row.getD 1 0]) (1 / 8)
      [[1, 2], [3, 4]] = .ok ([[2], [7]], D) ∧ D.n = 2 ∧ D.m = 1 ∧ D.l = 2 ∧
    ∀ n < 2, ∀ j < 1, ∀ i < 2, D.val n j i = if i = 0 then (n : ℚ) else 1 := by
  have h := C55_serial_exact (fun n row => [(n : ℚ) * row.getD 0 0 + row.getD 1 0]) (1 / 8)
    (by norm_num) [[1, 2], [3, 4]] 2 1 (by simp) (by simp) (by simp)
    (fun n _ i => if i = 0 then (n : ℚ) else 1) (by
      intro n row hrow j hj i hi
      have hl : row.length = 2 := by
        have := List.mem_of_getElem? hrow
        simp only [List.mem_cons, List.not_mem_nil, or_false] at this
        rcases this with rfl | rfl <;> rfl
      refine ⟨(n : ℚ) * row.getD 0 0 + row.getD 1 0, ?_⟩
      intro s
      have hj0 : j = 0 := by omega
      subst hj0
      simp only [List.getD_cons_zero, bump_getD row i _ s (by omega)]
      rcases Nat.lt_or_ge i 1 with h | h
      · have : i = 0 := by omega
        subst this
        simp
        ring
      · have : i = 1 := by omega
        subst this
        simp
        ring)
  obtain ⟨D, h1, h2⟩ := h
  refine ⟨D, ?_, h2⟩
  rw [h1]
  rw [show rowwise (fun n row => [(n : ℚ) * row.getD 0 0 + row.getD 1 0]) [[1, 2], [3, 4]] =
    [[2], [7]] by decide +kernel]

end Dolo
