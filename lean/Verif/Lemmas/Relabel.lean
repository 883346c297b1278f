import Mathlib.Tactic.Ring
import Mathlib.Tactic.NormNum
import Mathlib.Data.Set.Function
import Mathlib.Data.Finset.Range
import Mathlib.Algebra.BigOperators.Group.Finset.Basic
import Verif.Model.TISerial
import Verif.Props.Newton
import Verif.Props.Gauss
import Verif.Props.NumDiff

/-!
# Changing the order of variables, equations and points: lemmas
-/

set_option linter.unusedSectionVars false

namespace Dolo

/-- `σ` permutes `0, …, n - 1`. -/
def Permutes (n : ℕ) (σ : ℕ → ℕ) : Prop := Set.BijOn σ (Set.Iio n) (Set.Iio n)

/-- The vector `v'` lists the first `n` entries of `v` in the order `σ`. -/
def VecIn {α : Type} (n : ℕ) (σ : ℕ → ℕ) (v' v : ℕ → α) : Prop := ∀ i < n, v' i = v (σ i)

/-- The array `x'` lists the rows of `x` in the order `δ`, and the columns in the order `σ`. -/
def ArrIn {α : Type} (N n : ℕ) (δ σ : ℕ → ℕ) (x' x : ℕ → ℕ → α) : Prop := ∀ p < N, VecIn n σ (x' p) (x (δ p))

/-- `f'` is the function `f` with points in the order `δ`, unknowns in the order `π` and equations in the order `τ`. -/
def FunIn {K : Type} (N n : ℕ) (δ π τ : ℕ → ℕ) (f' f : (ℕ → ℕ → K) → (ℕ → ℕ → K) × (ℕ → ℕ → ℕ → K)) : Prop :=
  ∀ x' x, ArrIn N n δ π x' x → ArrIn N n δ τ (f' x').1 (f x).1 ∧
    ∀ p < N, ∀ i < n, ∀ j < n, (f' x').2 p i j = (f x).2 (δ p) (τ i) (π j)

section
variable {K : Type} [Field K] [LinearOrder K] [IsStrictOrderedRing K] {N n : ℕ} {δ π τ : ℕ → ℕ}

theorem Permutes.lt (h : Permutes n π) {i : ℕ} (hi : i < n) : π i < n := h.mapsTo hi

theorem Permutes.surj (h : Permutes n π) {j : ℕ} (hj : j < n) : ∃ i < n, π i = j := h.surjOn hj

theorem Permutes.inj (h : Permutes n π) {i j : ℕ} (hi : i < n) (hj : j < n) (e : π i = π j) : i = j := h.injOn hi hj e

theorem Permutes.sum (h : Permutes n π) (a : ℕ → K) :
    ∑ j ∈ Finset.range n, a (π j) = ∑ j ∈ Finset.range n, a j := by
  refine Finset.sum_nbij π (fun j hj => ?_) ?_ ?_ (fun _ _ => rfl)
  · exact Finset.mem_range.2 (h.lt (Finset.mem_range.1 hj))
  · intro i hi j hj e
    exact h.inj (by simpa using hi) (by simpa using hj) e
  · intro j hj
    obtain ⟨i, hi, e⟩ := h.surj (by simpa using hj : j < n)
    exact ⟨i, by simpa using hi, e⟩

theorem maxAbs_relabel (hδ : Permutes N δ) (hτ : Permutes n τ) {v' v : ℕ → ℕ → K} (h : ArrIn N n δ τ v' v) :
    maxAbs N n v' = maxAbs N n v := by
  apply le_antisymm
  · refine (maxAbs_le_iff N n v' _ (maxAbs_nonneg _ _ _)).2 fun p hp i hi => ?_
    rw [h p hp i hi]
    exact (maxAbs_le_iff N n v _ (maxAbs_nonneg _ _ _)).1 le_rfl _ (hδ.lt hp) _ (hτ.lt hi)
  · refine (maxAbs_le_iff N n v _ (maxAbs_nonneg _ _ _)).2 fun p hp i hi => ?_
    obtain ⟨p', hp', rfl⟩ := hδ.surj hp
    obtain ⟨i', hi', rfl⟩ := hτ.surj hi
    rw [← h p' hp' i' hi']
    exact (maxAbs_le_iff N n v' _ (maxAbs_nonneg _ _ _)).1 le_rfl _ hp' _ hi'

theorem solves_relabel (hπ : Permutes n π) (hτ : Permutes n τ) {A A' : ℕ → ℕ → K} {b b' v v' : ℕ → K}
    (hA : ∀ i < n, ∀ j < n, A' i j = A (τ i) (π j)) (hb : VecIn n τ b' b) (hv : VecIn n π v' v) :
    Solves n A' b' v' ↔ Solves n A b v := by
  have e : ∀ i < n, ∑ j ∈ Finset.range n, A' i j * v' j = ∑ j ∈ Finset.range n, A (τ i) j * v j := by
    intro i hi
    rw [← hπ.sum fun j => A (τ i) j * v j]
    refine Finset.sum_congr rfl fun j hj => ?_
    rw [hA i hi j (Finset.mem_range.1 hj), hv j (Finset.mem_range.1 hj)]
  constructor
  · intro h i hi
    obtain ⟨i', hi', rfl⟩ := hτ.surj hi
    rw [← e i' hi', h i' hi', hb i' hi']
  · intro h i hi
    rw [e i hi, h _ (hτ.lt hi), hb i hi]

/-- The inverse order. -/
theorem Permutes.exists_inv (h : Permutes n π) : ∃ κ : ℕ → ℕ, ∀ i < n, κ i < n ∧ π (κ i) = i ∧ κ (π i) = i := by
  classical
  refine ⟨fun i => if hi : i < n then (h.surj hi).choose else 0, fun i hi => ?_⟩
  simp only [dif_pos hi, dif_pos (h.lt hi)]
  have a := (h.surj hi).choose_spec
  have b := (h.surj (h.lt hi)).choose_spec
  exact ⟨a.1, a.2, h.inj b.1 hi b.2⟩

theorem nonsingular_relabel (hπ : Permutes n π) (hτ : Permutes n τ) {A A' : ℕ → ℕ → K}
    (hA : ∀ i < n, ∀ j < n, A' i j = A (τ i) (π j)) (h : Nonsingular n A) : Nonsingular n A' := by
  intro v hv j hj
  obtain ⟨κ, hκ⟩ := hπ.exists_inv
  have h1 : VecIn n π v (fun i => v (κ i)) := fun i hi => by simp only [(hκ i hi).2.2]
  have h2 := (solves_relabel hπ hτ hA (b := fun _ => 0) (fun _ _ => rfl) h1).1 hv
  have := h _ h2 (π j) (hπ.lt hj)
  simpa [(hκ j hj).2.2] using this

theorem serialStep_point {dv : ℕ → ℕ → ℕ → K} {v : ℕ → ℕ → K} {p : ℕ} (hp : p < N) (h : Nonsingular n (dv p)) :
    Solves n (dv p) (v p) (serialStep N n dv v p) := by
  obtain ⟨-, h2⟩ := C24_serial_solve n ((List.range N).map fun p => (dv p, v p))
  obtain ⟨w, hw, hs⟩ := h2 p (dv p) (v p) (by simp [hp]) h
  unfold serialStep
  simp only [hw, Option.getD_some]
  exact hs

/-- The Newton step is reordered. -/
theorem serialStep_relabel (hδ : Permutes N δ) (hπ : Permutes n π) (hτ : Permutes n τ)
    {dv dv' : ℕ → ℕ → ℕ → K} {v v' : ℕ → ℕ → K} (hv : ArrIn N n δ τ v' v)
    (hd : ∀ p < N, ∀ i < n, ∀ j < n, dv' p i j = dv (δ p) (τ i) (π j)) (hns : ∀ p < N, Nonsingular n (dv p)) :
    ArrIn N n δ π (serialStep N n dv' v') (serialStep N n dv v) := by
  intro p hp
  have n' := nonsingular_relabel hπ hτ (hd p hp) (hns _ (hδ.lt hp))
  have s := serialStep_point (v := v) (hδ.lt hp) (hns _ (hδ.lt hp))
  have s' := serialStep_point (v := v') hp n'
  have t : Solves n (dv' p) (v' p) (fun i => serialStep N n dv v (δ p) (π i)) :=
    (solves_relabel hπ hτ (hd p hp) (hv p hp) (fun _ _ => rfl)).2 s
  obtain ⟨-, u⟩ := C24_gauss_solves n (dv' p) (v' p) n'
  intro i hi
  rw [u _ s' i hi, ← u _ t i hi]

theorem next_relabel (hδ : Permutes N δ) (hπ : Permutes n π) (hτ : Permutes n τ)
    {f f' : (ℕ → ℕ → K) → (ℕ → ℕ → K) × (ℕ → ℕ → ℕ → K)} (hf : FunIn N n δ π τ f' f) {x x' : ℕ → ℕ → K}
    (hx : ArrIn N n δ π x' x) (hns : ∀ p < N, Nonsingular n ((f x).2 p)) :
    ArrIn N n δ π ((serialProblem N n f').next x') ((serialProblem N n f).next x) := by
  obtain ⟨h1, h2⟩ := hf x' x hx
  have hs := serialStep_relabel hδ hπ hτ h1 h2 hns
  have ht : ∀ b, ArrIn N n δ π ((serialProblem N n f').trial x' (serialStep N n (f' x').2 (f' x').1) b)
      ((serialProblem N n f).trial x (serialStep N n (f x).2 (f x).1) b) := by
    intro b p hp i hi
    simp only [NewtonProblem.trial, serialProblem]
    rw [hx p hp i hi, hs p hp i hi]
  have hb : (fun b => decide (maxAbs N n (f' ((serialProblem N n f').trial x' (serialStep N n (f' x').2 (f' x').1) b)).1
        < maxAbs N n (f' x').1))
      = fun b => decide (maxAbs N n (f ((serialProblem N n f).trial x (serialStep N n (f x).2 (f x).1) b)).1
        < maxAbs N n (f x).1) := by
    funext b
    rw [maxAbs_relabel hδ hτ (hf _ _ (ht b)).1, maxAbs_relabel hδ hτ h1]
  have e : (serialProblem N n f').next x' = (serialProblem N n f').trial x' (serialStep N n (f' x').2 (f' x').1)
      (backSteps (fun b => decide (maxAbs N n (f' ((serialProblem N n f').trial x'
        (serialStep N n (f' x').2 (f' x').1) b)).1 < maxAbs N n (f' x').1)) 29 0) := rfl
  rw [e, hb]
  exact ht _

theorem newtonLoop_relabel (hδ : Permutes N δ) (hπ : Permutes n π) (hτ : Permutes n τ)
    {f f' : (ℕ → ℕ → K) → (ℕ → ℕ → K) × (ℕ → ℕ → ℕ → K)} (hf : FunIn N n δ π τ f' f) (tol : K) (k : ℕ) :
    ∀ (it : ℕ) (x x' : ℕ → ℕ → K), ArrIn N n δ π x' x →
      (∀ j < k, ∀ p < N, Nonsingular n ((f ((serialProblem N n f).next^[j] x)).2 p)) →
      (newtonLoop (serialProblem N n f') tol k it x').it = (newtonLoop (serialProblem N n f) tol k it x).it ∧
      (newtonLoop (serialProblem N n f') tol k it x').warned = (newtonLoop (serialProblem N n f) tol k it x).warned ∧
      ArrIn N n δ π (newtonLoop (serialProblem N n f') tol k it x').x (newtonLoop (serialProblem N n f) tol k it x).x := by
  induction k with
  | zero => intro it x x' hx _; exact ⟨rfl, rfl, hx⟩
  | succ k ih =>
    intro it x x' hx hns
    have e : (serialProblem N n f').norm ((serialProblem N n f').f x').1
        = (serialProblem N n f).norm ((serialProblem N n f).f x).1 := maxAbs_relabel hδ hτ (hf x' x hx).1
    rw [newtonLoop, newtonLoop, e]
    by_cases h : (serialProblem N n f).norm ((serialProblem N n f).f x).1 < tol
    · rw [if_pos h, if_pos h]
      exact ⟨rfl, rfl, hx⟩
    · rw [if_neg h, if_neg h]
      refine ih _ _ _ (next_relabel hδ hπ hτ hf hx (hns 0 (by omega))) fun j hj p hp => ?_
      have := hns (j + 1) (by omega) p hp
      rwa [Function.iterate_succ_apply] at this

/-! ### Numerical derivatives -/

theorem rowAt_rowsOf (x : ℕ → ℕ → K) {p i : ℕ} (hp : p < N) (hi : i < n) : rowAt (rowsOf N n x) p i = x p i := by
  simp [rowAt, rowsOf, hp, hi]

theorem shiftCol_rowsOf' (x : ℕ → ℕ → K) (i : ℕ) (eps : K) :
    shiftCol i eps (rowsOf N n x) = rowsOf N n fun p j => if j = i then x p j + eps else x p j := by
  unfold shiftCol rowsOf
  rw [List.map_map]
  refine List.map_congr_left fun p _ => ?_
  refine List.ext_getElem (by simp) fun j h1 h2 => ?_
  simp only [Function.comp_apply, List.getElem_modify, List.getElem_map, List.getElem_range]
  by_cases h : i = j
  · simp [h]
  · simp [h, Ne.symm h]

theorem diffFun_onRows (fn : (ℕ → ℕ → K) → ℕ → ℕ → K) (eps : K) (x : ℕ → ℕ → K) {p k : ℕ} (hp : p < N) (hk : k < n) :
    (diffFun N n (onRows N n fn) eps x).1 p k = fn (rowAt (rowsOf N n x)) p k ∧
    ∀ i < n, (diffFun N n (onRows N n fn) eps x).2 p k i
      = (fn (rowAt (rowsOf N n fun p j => if j = i then x p j + eps else x p j)) p k
        - fn (rowAt (rowsOf N n x)) p k) / eps := by
  set g := onRows N n fn with hg
  have hgl : ∀ X, (g X).length = N := fun X => by simp [hg, onRows, rowsOf]
  have hgr : ∀ X, rowAt (g X) p k = fn (rowAt X) p k := fun X => by rw [hg, onRows, rowAt_rowsOf _ hp hk]
  have hlen : (rowsOf N n x).length = (g (rowsOf N n x)).length := by rw [hgl]; simp [rowsOf]
  have hnx : ((rowsOf N n x).getD 0 []).length = n := by
    have hN : 0 < N := by omega
    simp [rowsOf, hN]
  have e : diffFun N n g eps x = (rowAt (g (rowsOf N n x)),
      (serialDiffLoop g eps (rowsOf N n x) (g (rowsOf N n x)) (List.range ((rowsOf N n x).getD 0 []).length)
        ⟨(g (rowsOf N n x)).length, ((g (rowsOf N n x)).getD 0 []).length, ((rowsOf N n x).getD 0 []).length,
          fun _ _ _ => 0⟩).val) := by
    unfold diffFun serialDiff
    rw [if_pos hlen]
    rfl
  rw [e]
  refine ⟨hgr _, fun i hi => ?_⟩
  obtain ⟨-, -, -, h4⟩ := serialDiffLoop_spec g eps (rowsOf N n x) (g (rowsOf N n x))
    (List.range ((rowsOf N n x).getD 0 []).length)
    ⟨(g (rowsOf N n x)).length, ((g (rowsOf N n x)).getD 0 []).length, ((rowsOf N n x).getD 0 []).length,
          fun _ _ _ => 0⟩
  simp only
  rw [h4, if_pos (by rw [hnx]; exact List.mem_range.2 hi), shiftCol_rowsOf', hgr, hgr]

/-- The numerical Jacobian is reordered. -/
theorem diffFun_relabel (hδ : Permutes N δ) (hπ : Permutes n π) (hτ : Permutes n τ)
    {fn fn' : (ℕ → ℕ → K) → ℕ → ℕ → K} (h : ∀ x' x, ArrIn N n δ π x' x → ArrIn N n δ τ (fn' x') (fn x)) (eps : K) :
    FunIn N n δ π τ (diffFun N n (onRows N n fn') eps) (diffFun N n (onRows N n fn) eps) := by
  intro x' x hx
  have hr : ∀ y' y : ℕ → ℕ → K, ArrIn N n δ π y' y → ArrIn N n δ τ (fn' (rowAt (rowsOf N n y'))) (fn (rowAt (rowsOf N n y))) := by
    intro y' y hy
    refine h _ _ fun p hp i hi => ?_
    rw [rowAt_rowsOf _ hp hi, rowAt_rowsOf _ (hδ.lt hp) (hπ.lt hi), hy p hp i hi]
  constructor
  · intro p hp i hi
    rw [(diffFun_onRows fn' eps x' hp hi).1, (diffFun_onRows fn eps x (hδ.lt hp) (hτ.lt hi)).1, hr x' x hx p hp i hi]
  · intro p hp i hi j hj
    rw [(diffFun_onRows fn' eps x' hp hi).2 j hj, (diffFun_onRows fn eps x (hδ.lt hp) (hτ.lt hi)).2 _ (hπ.lt hj),
      hr x' x hx p hp i hi, hr _ (fun p j' => if j' = π j then x p j' + eps else x p j') (fun q hq l hl => ?_) p hp i hi]
    by_cases e : l = j
    · subst e; simp [hx q hq l hl]
    · have : π l ≠ π j := fun e' => e (hπ.inj hl hj e')
      simp [e, this, hx q hq l hl]

end

/-- The smoothed residual is reordered, when every equation goes with its unknown. -/
theorem serialFcmp_relabel {N n : ℕ} {δ π : ℕ → ℕ} (hπ : Permutes n π)
    {f f' : (ℕ → ℕ → ℝ) → (ℕ → ℕ → ℝ) × (ℕ → ℕ → ℕ → ℝ)} (hf : FunIn N n δ π π f' f)
    {a a' b b' : ℕ → ℕ → Option ℝ} (ha : ArrIn N n δ π a' a) (hb : ArrIn N n δ π b' b) :
    FunIn N n δ π π (serialFcmp f' a' b') (serialFcmp f a b) := by
  intro x' x hx
  obtain ⟨h1, h2⟩ := hf x' x hx
  constructor
  · intro p hp i hi
    simp only [serialFcmp]
    rw [h1 p hp i hi, hx p hp i hi, ha p hp i hi, hb p hp i hi]
  · intro p hp i hi j hj
    simp only [serialFcmp]
    rw [h1 p hp i hi, hx p hp i hi, ha p hp i hi, hb p hp i hi, h2 p hp i hi j hj]
    by_cases e : i = j
    · subst e; simp
    · have : π i ≠ π j := fun e' => e (hπ.inj hi hj e')
      simp [e, this]

end Dolo
