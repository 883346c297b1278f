import Mathlib.Tactic.Ring
import Mathlib.Tactic.FieldSimp
import Mathlib.Tactic.Linarith
import Mathlib.Algebra.BigOperators.Fin
import Mathlib.Algebra.BigOperators.Field
import Verif.Model.Distribution
import Verif.Lemmas.Relabel

/-!
# Changing the units of measurement: lemmas
-/

set_option linter.unusedSectionVars false

namespace Dolo

/-- The array `x'` (`N` points, `n` variables) is `x` measured in other units: the variable `i` is multiplied by `u i`
and the origin of its scale is moved by `v i`. -/
def InUnits {K : Type} [Field K] (N n : ℕ) (u v : ℕ → K) (x' x : ℕ → ℕ → K) : Prop :=
  ∀ p < N, ∀ i < n, x' p i = u i * x p i + v i

/-- `f'` is the function `f` (residuals and Jacobian) of unknowns measured in other units, with the equation `i` multiplied
by `w i`. -/
def FunUnits {K : Type} [Field K] (N n : ℕ) (u v w : ℕ → K)
    (f' f : (ℕ → ℕ → K) → (ℕ → ℕ → K) × (ℕ → ℕ → ℕ → K)) : Prop :=
  ∀ x' x, InUnits N n u v x' x →
    (∀ p < N, ∀ i < n, (f' x').1 p i = w i * (f x).1 p i) ∧
    ∀ p < N, ∀ i < n, ∀ j < n, (f' x').2 p i j = w i * (f x).2 p i j / u j

section
variable {K : Type} [Field K] [LinearOrder K] [IsStrictOrderedRing K] {N n : ℕ} {u v w : ℕ → K}

theorem maxAbs_scale {c : K} (hc : 0 < c) {a' a : ℕ → ℕ → K} (h : ∀ p < N, ∀ i < n, a' p i = c * a p i) :
    maxAbs N n a' = c * maxAbs N n a := by
  apply le_antisymm
  · refine (maxAbs_le_iff N n a' _ (mul_nonneg hc.le (maxAbs_nonneg _ _ _))).2 fun p hp i hi => ?_
    rw [h p hp i hi, abs_mul, abs_of_pos hc]
    exact mul_le_mul_of_nonneg_left ((maxAbs_le_iff N n a _ (maxAbs_nonneg _ _ _)).1 le_rfl _ hp _ hi) hc.le
  · rw [mul_comm, ← le_div_iff₀ hc]
    refine (maxAbs_le_iff N n a _ (div_nonneg (maxAbs_nonneg _ _ _) hc.le)).2 fun p hp i hi => ?_
    rw [le_div_iff₀ hc]
    have := (maxAbs_le_iff N n a' _ (maxAbs_nonneg _ _ _)).1 le_rfl _ hp _ hi
    rwa [h p hp i hi, abs_mul, abs_of_pos hc, mul_comm] at this

theorem solves_units (hu : ∀ j < n, u j ≠ 0) (hw : ∀ i < n, w i ≠ 0) {A A' : ℕ → ℕ → K} {b b' y y' : ℕ → K}
    (hA : ∀ i < n, ∀ j < n, A' i j = w i * A i j / u j) (hb : ∀ i < n, b' i = w i * b i)
    (hy : ∀ j < n, y' j = u j * y j) : Solves n A' b' y' ↔ Solves n A b y := by
  refine forall₂_congr fun i hi => ?_
  have e : ∑ j ∈ Finset.range n, A' i j * y' j = w i * ∑ j ∈ Finset.range n, A i j * y j := by
    rw [Finset.mul_sum]
    refine Finset.sum_congr rfl fun j hj => ?_
    have hj := Finset.mem_range.1 hj
    have := hu j hj
    rw [hA i hi j hj, hy j hj]
    field_simp
  rw [e, hb i hi]
  exact mul_right_inj' (hw i hi)

theorem nonsingular_units (hu : ∀ j < n, u j ≠ 0) (hw : ∀ i < n, w i ≠ 0) {A A' : ℕ → ℕ → K}
    (hA : ∀ i < n, ∀ j < n, A' i j = w i * A i j / u j) (h : Nonsingular n A) : Nonsingular n A' := by
  intro y hy j hj
  have h1 := (solves_units (b := fun _ => 0) (b' := fun _ => 0) (y := fun j => y j / u j) (y' := y) hu hw hA
    (fun _ _ => by simp) (fun j hj => by have := hu j hj; field_simp)).1 hy
  have := h _ h1 j hj
  have h2 := hu j hj
  simpa [h2] using this

/-- The Newton step in other units. -/
theorem serialStep_units (hu : ∀ j < n, u j ≠ 0) (hw : ∀ i < n, w i ≠ 0) {dv dv' : ℕ → ℕ → ℕ → K} {r r' : ℕ → ℕ → K}
    (hr : ∀ p < N, ∀ i < n, r' p i = w i * r p i)
    (hd : ∀ p < N, ∀ i < n, ∀ j < n, dv' p i j = w i * dv p i j / u j) (hns : ∀ p < N, Nonsingular n (dv p)) :
    ∀ p < N, ∀ i < n, serialStep N n dv' r' p i = u i * serialStep N n dv r p i := by
  intro p hp
  have n' := nonsingular_units hu hw (hd p hp) (hns p hp)
  have s := serialStep_point (v := r) hp (hns p hp)
  have s' := serialStep_point (v := r') hp n'
  have t : Solves n (dv' p) (r' p) (fun i => u i * serialStep N n dv r p i) :=
    (solves_units hu hw (hd p hp) (hr p hp) (fun _ _ => rfl)).2 s
  obtain ⟨-, q⟩ := C24_gauss_solves n (dv' p) (r' p) n'
  intro i hi
  rw [q _ s' i hi, ← q _ t i hi]

theorem trial_units (hu : ∀ j < n, u j ≠ 0) (hw : ∀ i < n, w i ≠ 0)
    {f f' : (ℕ → ℕ → K) → (ℕ → ℕ → K) × (ℕ → ℕ → ℕ → K)} (hf : FunUnits N n u v w f' f) {x x' : ℕ → ℕ → K}
    (hx : InUnits N n u v x' x) (hns : ∀ p < N, Nonsingular n ((f x).2 p)) (b : ℕ) :
    InUnits N n u v ((serialProblem N n f').trial x' (serialStep N n (f' x').2 (f' x').1) b)
      ((serialProblem N n f).trial x (serialStep N n (f x).2 (f x).1) b) := by
  obtain ⟨h1, h2⟩ := hf x' x hx
  have hs := serialStep_units hu hw h1 h2 hns
  intro p hp i hi
  simp only [NewtonProblem.trial, serialProblem]
  rw [hx p hp i hi, hs p hp i hi]
  ring

theorem next_units (hu : ∀ j < n, u j ≠ 0) {c : K} (hc : 0 < c)
    {f f' : (ℕ → ℕ → K) → (ℕ → ℕ → K) × (ℕ → ℕ → ℕ → K)} (hf : FunUnits N n u v (fun _ => c) f' f) {x x' : ℕ → ℕ → K}
    (hx : InUnits N n u v x' x) (hns : ∀ p < N, Nonsingular n ((f x).2 p)) :
    InUnits N n u v ((serialProblem N n f').next x') ((serialProblem N n f).next x) := by
  have h1 := (hf x' x hx).1
  have ht := trial_units hu (fun _ _ => hc.ne') hf hx hns
  have hb : (fun b => decide (maxAbs N n (f' ((serialProblem N n f').trial x' (serialStep N n (f' x').2 (f' x').1) b)).1
        < maxAbs N n (f' x').1))
      = fun b => decide (maxAbs N n (f ((serialProblem N n f).trial x (serialStep N n (f x).2 (f x).1) b)).1
        < maxAbs N n (f x).1) := by
    funext b
    rw [maxAbs_scale hc (hf _ _ (ht b)).1, maxAbs_scale hc h1, decide_eq_decide]
    exact mul_lt_mul_iff_right₀ hc
  have e : (serialProblem N n f').next x' = (serialProblem N n f').trial x' (serialStep N n (f' x').2 (f' x').1)
      (backSteps (fun b => decide (maxAbs N n (f' ((serialProblem N n f').trial x'
        (serialStep N n (f' x').2 (f' x').1) b)).1 < maxAbs N n (f' x').1)) 29 0) := rfl
  rw [e, hb]
  exact ht _

theorem newtonLoop_units (hu : ∀ j < n, u j ≠ 0) {c : K} (hc : 0 < c)
    {f f' : (ℕ → ℕ → K) → (ℕ → ℕ → K) × (ℕ → ℕ → ℕ → K)} (hf : FunUnits N n u v (fun _ => c) f' f) (tol : K) (k : ℕ) :
    ∀ (it : ℕ) (x x' : ℕ → ℕ → K), InUnits N n u v x' x →
      (∀ j < k, ∀ p < N, Nonsingular n ((f ((serialProblem N n f).next^[j] x)).2 p)) →
      (newtonLoop (serialProblem N n f') (c * tol) k it x').it = (newtonLoop (serialProblem N n f) tol k it x).it ∧
      (newtonLoop (serialProblem N n f') (c * tol) k it x').warned = (newtonLoop (serialProblem N n f) tol k it x).warned ∧
      InUnits N n u v (newtonLoop (serialProblem N n f') (c * tol) k it x').x
        (newtonLoop (serialProblem N n f) tol k it x).x := by
  induction k with
  | zero => intro it x x' hx _; exact ⟨rfl, rfl, hx⟩
  | succ k ih =>
    intro it x x' hx hns
    have e : (serialProblem N n f').norm ((serialProblem N n f').f x').1
        = c * (serialProblem N n f).norm ((serialProblem N n f).f x).1 := maxAbs_scale hc (hf x' x hx).1
    rw [newtonLoop, newtonLoop, e]
    by_cases h : (serialProblem N n f).norm ((serialProblem N n f).f x).1 < tol
    · rw [if_pos h, if_pos (mul_lt_mul_of_pos_left h hc)]
      exact ⟨rfl, rfl, hx⟩
    · rw [if_neg h, if_neg (fun h' => h (lt_of_mul_lt_mul_left h' hc.le))]
      refine ih _ _ _ (next_units hu hc hf hx (hns 0 (by omega))) fun j hj p hp => ?_
      have := hns (j + 1) (by omega) p hp
      rwa [Function.iterate_succ_apply] at this

end

theorem exceptMap_eq_ok {α β : Type} {f : α → β} {x : Except Err α} {b : β} :
    x.map f = .ok b ↔ ∃ a, x = .ok a ∧ f a = b := by
  cases x <;> simp [Except.map]

theorem exceptMap_eq_error {α β : Type} {f : α → β} {x : Except Err α} {e : Err} :
    x.map f = .error e ↔ x = .error e := by
  cases x <;> simp [Except.map]

/-! ### Cholesky factors -/

section
variable {K : Type} [Field K] [LinearOrder K] [IsStrictOrderedRing K] {d : ℕ}

/-- `L` is the lower Cholesky factor of `S`: lower triangular with a positive diagonal, and `L Lᵀ = S`. -/
def LowerFactor (S L : Fin d → Fin d → K) : Prop :=
  (∀ a b, a < b → L a b = 0) ∧ (∀ a, 0 < L a a) ∧ ∀ a b, ∑ k, L a k * L b k = S a b

/-- `chol` does what `numpy.linalg.cholesky` is documented to do: it returns the factor if there is one, and raises
`LinAlgError` otherwise. -/
def LowerCholesky (chol : (Fin d → Fin d → K) → Except Err (Fin d → Fin d → K)) : Prop :=
  (∀ S L, chol S = .ok L ↔ LowerFactor S L) ∧ ∀ S e, chol S = .error e → e = .linAlgError

/-- The same for `scipy.linalg.cholesky`, which returns the transpose. -/
def UpperCholesky (chol : (Fin d → Fin d → K) → Except Err (Fin d → Fin d → K)) : Prop :=
  (∀ S L, chol S = .ok L ↔ LowerFactor S fun a b => L b a) ∧ ∀ S e, chol S = .error e → e = .linAlgError

theorem lowerFactor_unique {S L L' : Fin d → Fin d → K} (h : LowerFactor S L) (h' : LowerFactor S L') : L = L' := by
  obtain ⟨h1, h2, h3⟩ := h
  obtain ⟨h1', h2', h3'⟩ := h'
  have split : ∀ (M : Fin d → Fin d → K), (∀ a b, a < b → M a b = 0) → ∀ a b, ∑ k, M a k * M b k
      = (∑ k ∈ Finset.univ.filter (· < b), M a k * M b k) + M a b * M b b := by
    intro M hM a b
    rw [← Finset.sum_filter_add_sum_filter_not Finset.univ (· < b)]
    congr 1
    rw [Finset.sum_eq_single b]
    · intro k hk hkb
      have : b < k := lt_of_le_of_ne (not_lt.1 (Finset.mem_filter.1 hk).2) (Ne.symm hkb)
      rw [hM b k this, mul_zero]
    · intro hb
      simp at hb
  have main : ∀ (m : ℕ) (b : Fin d), b.1 = m → ∀ a, L a b = L' a b := by
    intro m
    induction m using Nat.strong_induction_on with
    | _ m ih =>
      intro b hb
      have es : ∀ a, ∑ k ∈ Finset.univ.filter (· < b), L a k * L b k
          = ∑ k ∈ Finset.univ.filter (· < b), L' a k * L' b k := by
        intro a
        refine Finset.sum_congr rfl fun k hk => ?_
        have hk' : k.1 < m := by rw [← hb]; exact (Finset.mem_filter.1 hk).2
        rw [ih k.1 hk' k rfl a, ih k.1 hk' k rfl b]
      have key : ∀ a, L a b * L b b = L' a b * L' b b := by
        intro a
        have e := (h3 a b).trans (h3' a b).symm
        rw [split L h1, split L' h1', es] at e
        exact add_left_cancel e
      have hd : L b b = L' b b := by
        have e := key b
        exact (mul_self_inj (h2 b).le (h2' b).le).1 e
      intro a
      have e := key a
      rw [hd] at e
      exact mul_right_cancel₀ (h2' b).ne' e
  funext a b
  exact main b.1 b rfl a

theorem lowerFactor_units {S L : Fin d → Fin d → K} {u : Fin d → K} (hu : ∀ i, 0 < u i) (h : LowerFactor S L) :
    LowerFactor (fun a b => u a * S a b * u b) fun a b => u a * L a b := by
  obtain ⟨h1, h2, h3⟩ := h
  refine ⟨fun a b hab => by simp [h1 a b hab], fun a => mul_pos (hu a) (h2 a), fun a b => ?_⟩
  change ∑ k, u a * L a k * (u b * L b k) = u a * S a b * u b
  rw [← h3 a b, Finset.mul_sum, Finset.sum_mul]
  exact Finset.sum_congr rfl fun k _ => by ring

theorem chol_units {chol : (Fin d → Fin d → K) → Except Err (Fin d → Fin d → K)} (hchol : LowerCholesky chol)
    (S : Fin d → Fin d → K) {u : Fin d → K} (hu : ∀ i, 0 < u i) :
    chol (fun a b => u a * S a b * u b) = (chol S).map fun L a b => u a * L a b := by
  rcases h : chol S with e | L
  · rcases h' : chol (fun a b => u a * S a b * u b) with e' | L'
    · rw [hchol.2 _ _ h, hchol.2 _ _ h']
      rfl
    · exfalso
      have q := lowerFactor_units (u := fun i => (u i)⁻¹) (fun i => inv_pos.2 (hu i)) ((hchol.1 _ _).1 h')
      have e1 : (fun a b => (u a)⁻¹ * (u a * S a b * u b) * (u b)⁻¹) = S := by
        funext a b
        have := (hu a).ne'
        have := (hu b).ne'
        field_simp
      rw [e1, ← hchol.1, h] at q
      cases q
  · exact (hchol.1 _ _).2 (lowerFactor_units hu ((hchol.1 _ _).1 h))

/-- The transposes of the lower factors. -/
theorem LowerCholesky.transpose {chol : (Fin d → Fin d → K) → Except Err (Fin d → Fin d → K)} (h : LowerCholesky chol) :
    UpperCholesky fun S => (chol S).map fun L a b => L b a := by
  refine ⟨fun S L => ?_, fun S e q => h.2 S e (exceptMap_eq_error.1 q)⟩
  rw [exceptMap_eq_ok, ← h.1]
  constructor
  · rintro ⟨L0, q, rfl⟩
    exact q
  · intro q
    exact ⟨_, q, rfl⟩

theorem UpperCholesky.transpose {chol : (Fin d → Fin d → K) → Except Err (Fin d → Fin d → K)} (h : UpperCholesky chol) :
    LowerCholesky fun S => (chol S).map fun L a b => L b a := by
  refine ⟨fun S L => ?_, fun S e q => h.2 S e (exceptMap_eq_error.1 q)⟩
  rw [exceptMap_eq_ok]
  constructor
  · rintro ⟨L0, q, rfl⟩
    exact (h.1 _ _).1 q
  · intro q
    exact ⟨fun a b => L b a, (h.1 _ _).2 q, rfl⟩

theorem upperChol_units {chol : (Fin d → Fin d → K) → Except Err (Fin d → Fin d → K)} (hchol : UpperCholesky chol)
    (S : Fin d → Fin d → K) {c : K} (hc : 0 < c) :
    chol (fun a b => c * S a b * c) = (chol S).map fun L a b => c * L a b := by
  have q := chol_units hchol.transpose S (u := fun _ => c) fun _ => hc
  rcases h1 : chol (fun a b => c * S a b * c) with e1 | L1 <;> rcases h2 : chol S with e2 | L2 <;>
    simp only [h1, h2, Except.map] at q ⊢
  · simpa using q
  · simp at q
  · simp at q
  · simp only [Except.ok.injEq] at q ⊢
    funext a b
    exact congrFun (congrFun q b) a

/-- There is a function which meets the contract. -/
theorem exists_lowerCholesky : ∃ chol : (Fin d → Fin d → K) → Except Err (Fin d → Fin d → K), LowerCholesky chol := by
  classical
  refine ⟨fun S => if h : ∃ L, LowerFactor S L then .ok h.choose else .error .linAlgError, fun S L => ?_, fun S e h => ?_⟩
  · by_cases h : ∃ L, LowerFactor S L
    · simp only [dif_pos h, Except.ok.injEq]
      constructor
      · rintro rfl
        exact h.choose_spec
      · exact lowerFactor_unique h.choose_spec
    · simp only [dif_neg h, reduceCtorEq, false_iff]
      exact fun q => h ⟨L, q⟩
  · by_cases h' : ∃ L, LowerFactor S L
    · simp only [dif_pos h', reduceCtorEq] at h
    · simp only [dif_neg h', Except.error.injEq] at h
      exact h.symm

end

end Dolo
