import Mathlib.Algebra.BigOperators.Intervals
import Verif.Model.AR1
import Verif.Props.MultiDisc
import Verif.Props.Simulation

/-!
# C115: one-dimensional autoregressions
-/

set_option linter.unusedSectionVars false

namespace Dolo

variable {K : Type} [Field K]

/-! ### Specification -/

/-- Expectation one period ahead of a value given at every node. -/
def stepE (Q : List (List K)) (v : List K) : List K :=
  Q.map fun row => (List.zipWith (· * ·) row v).sum

/-- Expectation `t` periods ahead, at every node, of a function of the node. -/
def horizonE (c : MChain K) (f : K → K) (t : ℕ) : List K :=
  (stepE c.transitions)^[t] (c.values.map fun y => f (y.getD 0 0))

/-! ### Helpers -/

private theorem getD_zipWith_add (y : List K) (mu : K) (hy : y ≠ []) :
    (List.zipWith (· + ·) y [mu]).getD 0 0 = y.getD 0 0 + mu := by
  cases y with
  | nil => exact absurd rfl hy
  | cons a r => simp

private theorem condE_shift (row : List K) (P : List (List K)) (mu : K) (hP : ∀ y ∈ P, y ≠ [])
    (f : K → K) :
    condE row (P.map fun y => List.zipWith (· + ·) y [mu]) (fun y => f (y.getD 0 0))
      = condE row P fun y => f (y.getD 0 0 + mu) := by
  unfold condE
  congr 1
  refine List.ext_getElem (by simp) fun i h1 h2 => ?_
  simp only [List.length_zipWith, List.length_map] at h1 h2
  simp only [List.getElem_zipWith, List.getElem_map]
  rw [getD_zipWith_add _ _ (hP _ (List.getElem_mem _))]

private theorem condE_lin (row : List K) (P : List (List K)) (hl : row.length = P.length)
    (h1 : row.sum = 1) (f : List K → K) (a b : K) :
    condE row P (fun y => a + b * f y) = a + b * condE row P f := by
  have key : ∀ (row : List K) (P : List (List K)), row.length = P.length →
      condE row P (fun y => a + b * f y) = a * row.sum + b * condE row P f := by
    intro row
    induction row with
    | nil => intro P _; simp [condE]
    | cons p row ih =>
      intro P hP
      cases P with
      | nil => simp at hP
      | cons y P =>
        have := ih P (by simpa using hP)
        simp only [condE, List.zipWith_cons_cons, List.sum_cons] at this ⊢
        rw [this]; ring
  rw [key row P hl, h1, mul_one]

private theorem condE_comb (row : List K) (P : List (List K)) (f g : List K → K) (a b : K) :
    condE row P (fun y => a * f y + b * g y) = a * condE row P f + b * condE row P g := by
  induction row generalizing P with
  | nil => simp [condE]
  | cons p row ih =>
    cases P with
    | nil => simp [condE]
    | cons y P =>
      have := ih P
      simp only [condE, List.zipWith_cons_cons, List.sum_cons] at this ⊢
      rw [this]; ring

section ordered

variable [LinearOrder K] [IsStrictOrderedRing K]

/-- **C115, relation to `VAR1`.**  `AR1(ρ, σ, μ)` is discretised as the one-dimensional `VAR1` whose
*variance* is `σ`: same result in all cases, exceptions included. -/
theorem C115_ar1_is_var1
    (mdisc : K → (Fin 1 → Fin 1 → K) → Except Err (List (List K) × List (List K)))
    (rho sigma mu : K) :
    ar1Discretize mdisc rho sigma mu "mc"
      = some <$> var1DiscretizeMc (d := 0) (fun r => mdisc r fun _ _ => sigma) (fun _ _ => rho)
          (fun _ => mu) := by
  simp [ar1Discretize, ar1DiscretizeMc, var1DiscretizeMc]

/-- **C115, the chain.**  For at least two nodes and `ρ² ≠ 1`, the chain that `AR1(ρ, σ, μ)` is
discretised to has, at every horizon `t` and from every node `y`, total probability one, conditional
mean `μ + ρ^t (y - μ)` and conditional second moment around the mean
`ρ^(2t) (y - μ)² + σ (1 + ρ² + ... + ρ^(2(t-1)))`. -/
theorem C115_horizon (sqrt : K → K)
    (chol : (Fin 1 → Fin 1 → K) → Except Err (Fin 1 → Fin 1 → K))
    (rho sigma mu : K) (N : ℕ) (hN : 2 ≤ N) (hr : 1 - rho ^ 2 ≠ 0)
    (hsqrt : sqrt (((N : K) - 1) / (1 - rho ^ 2)) ^ 2 = ((N : K) - 1) / (1 - rho ^ 2))
    (L : Fin 1 → Fin 1 → K) (hL : chol (fillDiag fun _ _ => sigma) = .ok L)
    (hfac : L 0 0 ^ 2 = fillDiag (fun _ _ : Fin 1 => sigma) 0 0) :
    ∃ c, ar1Discretize (fun r S => multidimDisc chol (rouwenhorst sqrt r 1 N) S) rho sigma mu "mc"
        = .ok (some c) ∧ c.values.length = N ∧ c.transitions.length = N ∧
      ∀ (t : ℕ) (i : ℕ) (y : List K), c.values[i]? = some y →
        (horizonE c (fun _ => 1) t)[i]? = some 1 ∧
        (horizonE c (fun v => v) t)[i]? = some (mu + rho ^ t * (y.getD 0 0 - mu)) ∧
        (horizonE c (fun v => (v - mu) ^ 2) t)[i]?
          = some (rho ^ (2 * t) * (y.getD 0 0 - mu) ^ 2
              + sigma * ∑ s ∈ Finset.range t, rho ^ (2 * s)) := by
  obtain ⟨P, Q, h1, h2, h3, h4⟩ := C61_multidim_moments sqrt chol rho N hN hr hsqrt
    (fun _ _ : Fin 1 => sigma) L hL
  rw [pow_one] at h2 h3
  have hc : var1ScalarCheck (d := 0) (fun _ _ => rho) = .ok rho := by
    unfold var1ScalarCheck
    rw [if_pos]
    intro a b
    have : a = b := Subsingleton.elim (α := Fin 1) a b
    simp [this]
  have hPne : ∀ y ∈ P, y ≠ [] := by
    have hlen : ∀ y ∈ P, y.length = 1 := by
      simp only [multidimDisc, hL, bind, Except.bind, pure, Except.pure, Except.ok.injEq,
        Prod.mk.injEq] at h1
      rw [← h1.1]
      intro y hy
      obtain ⟨z, hz, rfl⟩ := List.mem_map.1 hy
      obtain ⟨w, hw, rfl⟩ := List.mem_map.1 hz
      simp [matVec]
    intro y hy h
    have := hlen y hy
    simp [h] at this
  refine ⟨⟨Q, P.map fun row => List.zipWith (· + ·) row [mu]⟩, ?_, by simp [h2], h3, ?_⟩
  · have : ar1DiscretizeMc (fun r S => multidimDisc chol (rouwenhorst sqrt r 1 N) S) rho sigma mu
        = .ok ⟨Q, P.map fun row => List.zipWith (· + ·) row [mu]⟩ := by
      simp only [ar1DiscretizeMc, hc, bind, Except.bind, h1, pure, Except.pure]
    simp [ar1Discretize, this, Functor.map, Except.map]
  -- one period ahead, in the shifted chain
  set V := P.map fun row => List.zipWith (· + ·) row [mu] with hV
  have hVl : V.length = N := by simp [hV, h2]
  have hvar : ∀ (s : ℕ) (y row : List K), P[s]? = some y → Q[s]? = some row →
      condE row P (fun y' => (y'.getD 0 0 - rho * y.getD 0 0) ^ 2) = sigma := by
    intro s y row hy hrow
    have := (h4 s y row hy hrow).2.2.2 0 0
    simp only [Fin.val_zero, Finset.univ_unique, Fin.default_eq_zero,
      Finset.sum_singleton, or_self, Fin.isValue] at this
    simp only [sq]
    rw [this]
    by_cases h0 : sigma = 0
    · simp [h0]
    · rw [if_neg h0, ← sq, hfac, fillDiag, if_neg]
      rintro ⟨-, h⟩
      simp [zeroColumns, h0] at h
  have hone : ∀ (f : K → K) (a b c : K), (∀ v, f v = a + b * v + c * (v - mu) ^ 2) →
      stepE Q (V.map fun y => f (y.getD 0 0))
        = V.map fun y => a + b * (mu + rho * (y.getD 0 0 - mu))
            + c * (rho ^ 2 * (y.getD 0 0 - mu) ^ 2 + sigma) := by
    intro f a b c hf
    refine List.ext_getElem? fun i => ?_
    by_cases hi : i < N
    · have hQi : i < Q.length := by omega
      have hPi : i < P.length := by omega
      have e1 : Q[i]? = some Q[i] := List.getElem?_eq_getElem hQi
      have e2 : P[i]? = some P[i] := List.getElem?_eq_getElem hPi
      obtain ⟨g1, g2, g3, -⟩ := h4 i P[i] Q[i] e2 e1
      have g4 := hvar i P[i] Q[i] e2 e1
      have g3 := g3 0
      simp only [Fin.val_zero] at g3
      rw [pow_one] at g1
      simp only [stepE, List.getElem?_map, e1, Option.map_some, hV, e2, Option.some.injEq]
      rw [getD_zipWith_add _ _ (hPne _ (List.getElem_mem _))]
      have e3 : (List.zipWith (· * ·) Q[i] (List.map (fun y => f (y.getD 0 0))
            (P.map fun row => List.zipWith (· + ·) row [mu]))).sum
          = condE Q[i] (P.map fun row => List.zipWith (· + ·) row [mu]) fun y => f (y.getD 0 0) := by
        simp [condE, List.zipWith_map_right]
      rw [e3, condE_shift _ _ _ hPne]
      have e4 : ∀ y' : List K, f (y'.getD 0 0 + mu)
          = (a + b * mu + c * (-(rho ^ 2 * (P[i].getD 0 0) ^ 2)))
            + 1 * ((b + c * (2 * rho * P[i].getD 0 0)) * y'.getD 0 0
              + c * (y'.getD 0 0 - rho * P[i].getD 0 0) ^ 2) := by
        intro y'
        rw [hf]
        ring
      simp only [e4]
      rw [condE_lin _ _ (by omega) g2]
      have e5 : condE Q[i] P (fun y' => (b + c * (2 * rho * P[i].getD 0 0)) * y'.getD 0 0
              + c * (y'.getD 0 0 - rho * P[i].getD 0 0) ^ 2)
          = (b + c * (2 * rho * P[i].getD 0 0)) * condE Q[i] P (fun y' => y'.getD 0 0)
              + c * condE Q[i] P fun y' => (y'.getD 0 0 - rho * P[i].getD 0 0) ^ 2 := by
        exact condE_comb _ _ _ _ _ _
      rw [e5, g3, g4]
      ring
    · rw [List.getElem?_eq_none (by simp [stepE]; omega), List.getElem?_eq_none (by simp; omega)]
  have hmass : ∀ t, horizonE ⟨Q, V⟩ (fun _ => 1) t = V.map fun _ => 1 := by
    intro t
    induction t with
    | zero => rfl
    | succ t ih =>
      simp only [horizonE, Function.iterate_succ_apply'] at ih ⊢
      rw [ih]
      have := hone (fun _ => 1) 1 0 0 (fun v => by ring)
      simpa using this
  have hmean : ∀ t, horizonE ⟨Q, V⟩ (fun v => v) t
      = V.map fun y => mu + rho ^ t * (y.getD 0 0 - mu) := by
    intro t
    induction t with
    | zero =>
      refine List.map_congr_left fun y _ => by simp
    | succ t ih =>
      simp only [horizonE, Function.iterate_succ_apply'] at ih ⊢
      rw [ih, hone (fun v => mu + rho ^ t * (v - mu)) (mu - rho ^ t * mu) (rho ^ t) 0
        (fun v => by ring)]
      refine List.map_congr_left fun y _ => by ring
  have hsq : ∀ t, horizonE ⟨Q, V⟩ (fun v => (v - mu) ^ 2) t
      = V.map fun y => rho ^ (2 * t) * (y.getD 0 0 - mu) ^ 2
          + sigma * ∑ s ∈ Finset.range t, rho ^ (2 * s) := by
    intro t
    induction t with
    | zero =>
      refine List.map_congr_left fun y _ => by simp
    | succ t ih =>
      simp only [horizonE, Function.iterate_succ_apply'] at ih ⊢
      rw [ih, hone (fun v => rho ^ (2 * t) * (v - mu) ^ 2
        + sigma * ∑ s ∈ Finset.range t, rho ^ (2 * s))
        (sigma * ∑ s ∈ Finset.range t, rho ^ (2 * s)) 0 (rho ^ (2 * t)) (fun v => by ring)]
      refine List.map_congr_left fun y _ => ?_
      rw [Finset.sum_range_succ]
      ring
  intro t i y hy
  refine ⟨?_, ?_, ?_⟩
  · rw [hmass, List.getElem?_map, hy]; rfl
  · rw [hmean, List.getElem?_map, hy]; rfl
  · rw [hsq, List.getElem?_map, hy]; rfl

/-- **C115 (negation).**  The conditional variance of the chain is `σ` and not the square of the
standard deviation `σ`: the two agree only for `σ = 0` and `σ = 1`. -/
theorem C115_variance_fails (sqrt : K → K)
    (chol : (Fin 1 → Fin 1 → K) → Except Err (Fin 1 → Fin 1 → K))
    (rho sigma mu : K) (N : ℕ) (hN : 2 ≤ N) (hr : 1 - rho ^ 2 ≠ 0)
    (hsqrt : sqrt (((N : K) - 1) / (1 - rho ^ 2)) ^ 2 = ((N : K) - 1) / (1 - rho ^ 2))
    (L : Fin 1 → Fin 1 → K) (hL : chol (fillDiag fun _ _ => sigma) = .ok L)
    (hfac : L 0 0 ^ 2 = fillDiag (fun _ _ : Fin 1 => sigma) 0 0) :
    ∃ c, ar1Discretize (fun r S => multidimDisc chol (rouwenhorst sqrt r 1 N) S) rho sigma mu "mc"
        = .ok (some c) ∧
      ((∀ (i : ℕ) (y : List K), c.values[i]? = some y →
        (horizonE c (fun v => (v - mu) ^ 2) 1)[i]?
          = some (rho ^ 2 * (y.getD 0 0 - mu) ^ 2 + sigma ^ 2)) ↔ sigma = 0 ∨ sigma = 1) := by
  obtain ⟨c, h1, h2, -, h4⟩ := C115_horizon sqrt chol rho sigma mu N hN hr hsqrt L hL hfac
  refine ⟨c, h1, fun h => ?_, fun h i y hy => ?_⟩
  · have h0 : 0 < c.values.length := by omega
    have e := List.getElem?_eq_getElem h0
    have e1 := h 0 _ e
    have e2 := (h4 1 0 _ e).2.2
    rw [e1] at e2
    simp only [mul_one, Finset.range_one, Finset.sum_singleton, mul_zero, pow_zero,
      Option.some.injEq, add_right_inj] at e2
    have : sigma * (sigma - 1) = 0 := by rw [mul_sub, mul_one, ← sq, e2, sub_self]
    rcases mul_eq_zero.1 this with h | h
    · exact .inl h
    · exact .inr (sub_eq_zero.1 h)
  · rw [(h4 1 i y hy).2.2]
    rcases h with h | h <;> simp [h]

/-- **C115 (negation).**  An `AR1` cannot be simulated, has no impulse response and cannot be
discretised as a general process: all of these raise for all parameters, and `discretize` with any
other target returns nothing. -/
theorem C115_unavailable
    (mdisc : K → (Fin 1 → Fin 1 → K) → Except Err (List (List K) × List (List K)))
    (rho sigma mu : K) :
    (∀ (T : ℕ) (m0 : Option K) (b : Bool) (r : List K), ar1SimulatePath rho sigma mu T m0 b ≠ .ok r) ∧
    (∀ (T : ℕ) (e : K) (r : List K), ar1Response rho mu T e ≠ .ok r) ∧
    (∀ c, ar1Discretize mdisc rho sigma mu "gdp" ≠ .ok c) ∧
    ∀ dst, dst ≠ "mc" → dst ≠ "gdp" → ar1Discretize mdisc rho sigma mu dst = .ok none := by
  refine ⟨fun T m0 b r h => ?_, fun T e r h => ?_, fun c h => ?_, fun dst h1 h2 => ?_⟩
  · unfold ar1SimulatePath at h
    split_ifs at h
  · unfold ar1Response at h
    split_ifs at h
  · simp [ar1Discretize, ar1DiscretizeGdp, Functor.map, Except.map] at h
  · simp [ar1Discretize, h1, h2]

end ordered

/-- `AR1(ρ = 0, σ = 4, μ = 10)` with two nodes: from both nodes the expected squared deviation one
period ahead is 4. -/
example : ∃ c : MChain ℚ,
    ar1Discretize (fun r S => multidimDisc (fun _ => .ok fun _ _ => 2) (rouwenhorst (fun _ => 1) r 1 2) S)
      0 4 10 "mc" = .ok (some c) ∧
    ∀ (i : ℕ) (y : List ℚ), c.values[i]? = some y → (horizonE c (fun v => (v - 10) ^ 2) 1)[i]? = some 4 := by
  obtain ⟨c, h1, -, -, h4⟩ := C115_horizon (fun _ => (1 : ℚ)) (fun _ => .ok fun _ _ => 2) 0 4 10 2 le_rfl
    (by norm_num) (by norm_num) (fun _ _ => 2) rfl (by norm_num [fillDiag, zeroColumns])
  refine ⟨c, h1, fun i y hy => ?_⟩
  rw [(h4 1 i y hy).2.2]
  norm_num

end Dolo
