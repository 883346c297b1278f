import Mathlib.Data.Real.Basic
import Mathlib.Algebra.Order.BigOperators.Ring.Finset
import Mathlib.Tactic.Linarith
import Mathlib.Tactic.FieldSimp
import Mathlib.Tactic.Positivity
import Mathlib.Tactic.NormNum
import Verif.Props.TimeIteration

/-!
# C157: small changes of the model change the rule of time_iteration little
-/

set_option linter.unusedSectionVars false

namespace Dolo

/-! ### Specification -/

/-- Two bounds are both absent, or both there and within `ε` of each other. -/
def BoundWithin (ε : ℝ) (a b : Option ℝ) : Prop :=
  (a = none ∧ b = none) ∨ ∃ l l', a = some l ∧ b = some l' ∧ |l - l'| ≤ ε

/-- The model `M'` is obtained from `M` by a change of at most `ε`: the grids have the same numbers of points, and on the
controls of `D` the expected arbitrage residuals and the bounds differ by at most `ε`. -/
structure RuleChange (M M' : TIModel ℝ) (c c' : Bool) (D : ℕ → ℕ → (ℕ → ℝ) → Prop) (ε : ℝ) : Prop where
  nodes : M'.dp.nNodes = M.dp.nNodes
  points : M'.N = M.N
  controls : M'.nx = M.nx
  residual : ∀ v, Inside M D v → ∀ i < M.dp.nNodes, ∀ n < M.N, ∀ k < M.nx,
    |eulerResidual M' i n (v i n) v k - eulerResidual M i n (v i n) v k| ≤ ε
  lower : ∀ i < M.dp.nNodes, ∀ n < M.N, ∀ k < M.nx, BoundWithin ε (lowerAt M c i n k) (lowerAt M' c' i n k)
  upper : ∀ i < M.dp.nNodes, ∀ n < M.N, ∀ k < M.nx, BoundWithin ε (upperAt M c i n k) (upperAt M' c' i n k)

/-! ### Lemmas -/

theorem natural_change (lb lb' ub ub' : Option ℝ) (x f f' ε : ℝ) (hl : BoundWithin ε lb lb')
    (hu : BoundWithin ε ub ub') (hf : |f' - f| ≤ ε) :
    |naturalResidual lb' ub' x f' - naturalResidual lb ub x f| ≤ ε := by
  have hmin : ∀ a b c d : ℝ, |a - c| ≤ ε → |b - d| ≤ ε → |min a b - min c d| ≤ ε := fun a b c d h1 h2 =>
    le_trans (abs_min_sub_min_le_max a b c d) (max_le h1 h2)
  have hmax : ∀ a b c d : ℝ, |a - c| ≤ ε → |b - d| ≤ ε → |max a b - max c d| ≤ ε := fun a b c d h1 h2 =>
    le_trans (abs_max_sub_max_le_max a b c d) (max_le h1 h2)
  have hsub : ∀ l l' : ℝ, |l - l'| ≤ ε → |(x - l') - (x - l)| ≤ ε := by
    intro l l' h
    have e : (x - l') - (x - l) = l - l' := by ring
    rw [e]; exact h
  rcases hl with ⟨rfl, rfl⟩ | ⟨l, l', rfl, rfl, h1⟩ <;> rcases hu with ⟨rfl, rfl⟩ | ⟨u, u', rfl, rfl, h2⟩
  · exact hf
  · exact hmax _ _ _ _ hf (hsub _ _ h2)
  · exact hmin _ _ _ _ hf (hsub _ _ h1)
  · exact hmax _ _ _ _ (hmin _ _ _ _ hf (hsub _ _ h1)) (hsub _ _ h2)

/-! ### The theorems -/

/-- **C157, Euler errors.**  A rule whose errors in the equilibrium conditions (natural residuals of the complementarity
problems) are at most `ε` is within `κ ε / (1 - q)` of the equilibrium rule. -/
theorem C157_euler_errors (M : TIModel ℝ) (c : Bool) (D : ℕ → ℕ → (ℕ → ℝ) → Prop) (μ L ℓ ε : ℝ) (hε : 0 ≤ ε)
    (hO : OwnControls M D μ L) (hF : FutureLipschitz M D ℓ) (hℓ : 0 ≤ ℓ) (hq : ℓ < μ)
    (xs ys : Table ℝ) (hxs : Inside M D xs) (hys : Inside M D ys)
    (hx : ∀ i < M.dp.nNodes, ∀ n < M.N, ∀ k < M.nx, |naturalResidual (lowerAt M c i n k) (upperAt M c i n k) (xs i n k)
      (eulerResidual M i n (xs i n) xs k)| ≤ ε) (hy : Equilibrium M c ys) :
    Within M (max 1 L / μ * ε / (1 - ℓ / μ)) xs ys := by
  have hμ := hO.pos
  set E := maxAbs (M.dp.nNodes * M.N) M.nx fun r k => toRows M.N xs r k - toRows M.N ys r k with hE
  have hE0 : 0 ≤ E := maxAbs_nonneg _ _ _
  have hW : Within M E xs ys := by
    have hW0 := (rows_dist M (toRows M.N xs) (toRows M.N ys) E hE0).1 (le_refl _)
    intro i hi n hn k hk
    have := hW0 i hi n hn k hk
    rwa [ofRows_toRows _ _ _ _ hn, ofRows_toRows _ _ _ _ hn] at this
  have hstep : Within M (max 1 L / μ * ε + ℓ / μ * E) xs ys := by
    intro i hi n hn k hk
    exact one_step M c D μ L ℓ ε hO hF hε xs ys E hE0 hxs hys hW i hi n hn (xs i n) (ys i n)
      (hxs i hi n hn) (hys i hi n hn) (hx i hi n hn) (hy i hi n hn) k hk
  have hq1 : ℓ / μ < 1 := (div_lt_one hμ).2 hq
  have hκ : 0 ≤ max 1 L / μ := div_nonneg (le_trans zero_le_one (le_max_left _ _)) hμ.le
  have hq0 : 0 ≤ max 1 L / μ * ε + ℓ / μ * E :=
    add_nonneg (mul_nonneg hκ hε) (mul_nonneg (div_nonneg hℓ hμ.le) hE0)
  have hle : E ≤ max 1 L / μ * ε + ℓ / μ * E := by
    refine (rows_dist M (toRows M.N xs) (toRows M.N ys) _ hq0).2 ?_
    intro i hi n hn k hk
    rw [ofRows_toRows _ _ _ _ hn, ofRows_toRows _ _ _ _ hn]
    exact hstep i hi n hn k hk
  have hfin : E ≤ max 1 L / μ * ε / (1 - ℓ / μ) := by
    rw [le_div_iff₀ (by linarith)]; linarith
  intro i hi n hn k hk
  exact le_trans (hW i hi n hn k hk) hfin

/-- **C157, equilibria.**  When `M'` differs from `M` by at most `ε`, their equilibrium rules differ by at most
`κ ε / (1 - q)` at every node, grid point and control, where `κ` and `q` are the constants of `C110` for `M'`. -/
theorem C157_equilibria (M M' : TIModel ℝ) (c c' : Bool) (D : ℕ → ℕ → (ℕ → ℝ) → Prop) (μ L ℓ ε : ℝ)
    (hch : RuleChange M M' c c' D ε) (hε : 0 ≤ ε)
    (hO : OwnControls M' D μ L) (hF : FutureLipschitz M' D ℓ) (hℓ : 0 ≤ ℓ) (hq : ℓ < μ)
    (hb : ∀ i n k, BoundsOK (lowerAt M c i n k) (upperAt M c i n k))
    (xs ys : Table ℝ) (hxs : Inside M D xs) (hys : Inside M' D ys)
    (hx : Equilibrium M c xs) (hy : Equilibrium M' c' ys) :
    Within M (max 1 L / μ * ε / (1 - ℓ / μ)) xs ys := by
  have hxs' : Inside M' D xs := fun i hi n hn => hxs i (hch.nodes ▸ hi) n (hch.points ▸ hn)
  have hW := C157_euler_errors M' c' D μ L ℓ ε hε hO hF hℓ hq xs ys hxs' hys (fun i hi n hn k hk => by
    have hi' := hch.nodes ▸ hi
    have hn' := hch.points ▸ hn
    have hk' := hch.controls ▸ hk
    have h0 := (naturalResidual_zero _ _ (hb i n k) _ _).2 (hx i hi' n hn' k hk')
    have := natural_change _ _ _ _ (xs i n k) _ _ ε (hch.lower i hi' n hn' k hk') (hch.upper i hi' n hn' k hk')
      (hch.residual xs hxs i hi' n hn' k hk')
    rwa [h0, sub_zero] at this) hy
  intro i hi n hn k hk
  exact hW i (hch.nodes.symm ▸ hi) n (hch.points.symm ▸ hn) k (hch.controls.symm ▸ hk)

/-- **C157, rules returned.**  Two runs of `time_iteration`, for `M` and for the changed model `M'`, each with its own
inner solver, options and initial guess, return rules which differ by at most the change of the equilibrium, plus for
each run the term `(κ δ + q err) / (1 - q)` computed from the error it reported. -/
theorem C157_rules (M M' : TIModel ℝ) (S S' : TISolvers ℝ) (o o' : TIOpts ℝ)
    (hub : M.lb.isSome → M.ub.isSome) (hub' : M'.lb.isSome → M'.ub.isSome)
    (D : ℕ → ℕ → (ℕ → ℝ) → Prop) (μ L ℓ δ δ' ε : ℝ)
    (hch : RuleChange M M' (imposed M o) (imposed M' o') D ε) (hε : 0 ≤ ε)
    (hO : OwnControls M D μ L) (hF : FutureLipschitz M D ℓ)
    (hO' : OwnControls M' D μ L) (hF' : FutureLipschitz M' D ℓ) (hℓ : 0 ≤ ℓ) (hq : ℓ < μ)
    (hδ : 0 ≤ δ) (hδ' : 0 ≤ δ')
    (hS : SolverOK M S (imposed M o) D δ) (hS' : SolverOK M' S' (imposed M' o') D δ')
    (hb : ∀ i n k, BoundsOK (lowerAt M (imposed M o) i n k) (upperAt M (imposed M o) i n k))
    (xs ys : Table ℝ) (hxs : Inside M D xs) (hys : Inside M' D ys)
    (hx : Equilibrium M (imposed M o) xs) (hy : Equilibrium M' (imposed M' o') ys)
    (t0 t0' : Table ℝ) (h0 : tiInit M o = .ok t0) (h0' : tiInit M' o' = .ok t0')
    (hD : Inside M D t0) (hD' : Inside M' D t0')
    (r r' : TIFullResult ℝ) (hr : timeIterationFull M S o = .ok r) (hr' : timeIterationFull M' S' o' = .ok r') :
    let q := ℓ / μ
    let κ := max 1 L / μ
    Within M ((κ * ε + (κ * δ + q * r.err) + (κ * δ' + q * r'.err)) / (1 - q)) r.dr r'.dr := by
  intro q κ
  have dist : ∀ (M : TIModel ℝ) (a b : Table ℝ), ∃ d, 0 ≤ d ∧ Within M d a b := by
    intro M a b
    refine ⟨_, maxAbs_nonneg (M.dp.nNodes * M.N) M.nx fun r k => toRows M.N a r k - toRows M.N b r k, ?_⟩
    have hW0 := (rows_dist M (toRows M.N a) (toRows M.N b) _ (maxAbs_nonneg _ _ _)).1 (le_refl _)
    intro i hi n hn k hk
    have := hW0 i hi n hn k hk
    rwa [ofRows_toRows _ _ _ _ hn, ofRows_toRows _ _ _ _ hn] at this
  obtain ⟨d, hd0, hd⟩ := dist M t0 xs
  obtain ⟨d', hd0', hd'⟩ := dist M' t0' ys
  have h1 := (C110_convergence M S o hub D μ L ℓ δ hO hF hℓ hq hδ hS xs hxs hx t0 h0 hD d hd0 hd r hr).1
  have h2 := (C110_convergence M' S' o' hub' D μ L ℓ δ' hO' hF' hℓ hq hδ' hS' ys hys hy t0' h0' hD' d' hd0' hd' r' hr').1
  have h3 := C157_equilibria M M' _ _ D μ L ℓ ε hch hε hO' hF' hℓ hq hb xs ys hxs hys hx hy
  intro i hi n hn k hk
  have a1 := h1 i hi n hn k hk
  have a2 := h2 i (hch.nodes.symm ▸ hi) n (hch.points.symm ▸ hn) k (hch.controls.symm ▸ hk)
  have a3 := h3 i hi n hn k hk
  rw [abs_sub_comm] at a2
  have b1 := abs_sub_le (r.dr i n k) (xs i n k) (r'.dr i n k)
  have b2 := abs_sub_le (xs i n k) (ys i n k) (r'.dr i n k)
  have e : (κ * ε + (κ * δ + q * r.err) + (κ * δ' + q * r'.err)) / (1 - q)
      = κ * ε / (1 - q) + (κ * δ + q * r.err) / (1 - q) + (κ * δ' + q * r'.err) / (1 - q) := by
    rw [add_div, add_div]
  rw [e]
  have a1' : |r.dr i n k - xs i n k| ≤ (κ * δ + q * r.err) / (1 - q) := a1
  have a2' : |ys i n k - r'.dr i n k| ≤ (κ * δ' + q * r'.err) / (1 - q) := a2
  have a3' : |xs i n k - ys i n k| ≤ κ * ε / (1 - q) := a3
  linarith

/-- **C157, residuals.**  A change of the arbitrage function of at most `εf`, and of the conditional probabilities of at
most `η` in total, changes the expected residuals by at most `εf + η B`, where `B` bounds the arbitrage function. -/
theorem C157_residuals (M : TIModel ℝ) (f' : (m s x M S X : ℕ → ℝ) → ℕ → ℝ) (w' : ℕ → ℕ → ℝ)
    (D : ℕ → ℕ → (ℕ → ℝ) → Prop) (εf η B : ℝ)
    (hw : ∀ i < M.dp.nNodes, ∀ j < M.dp.nInodes i, 0 ≤ w' i j)
    (hw1 : ∀ i < M.dp.nNodes, ∑ j ∈ Finset.range (M.dp.nInodes i), w' i j = 1)
    (hη : ∀ i < M.dp.nNodes, ∑ j ∈ Finset.range (M.dp.nInodes i), |w' i j - M.dp.iweight i j| ≤ η)
    (hf : ∀ m s x m' s' x' k, k < M.nx → |f' m s x m' s' x' k - M.f m s x m' s' x' k| ≤ εf)
    (hB : ∀ m s x m' s' x' k, k < M.nx → |M.f m s x m' s' x' k| ≤ B) (hB0 : 0 ≤ B) :
    ∀ v, Inside M D v → ∀ i < M.dp.nNodes, ∀ n < M.N, ∀ k < M.nx,
      |eulerResidual { M with f := f', dp := { M.dp with iweight := w' } } i n (v i n) v k
        - eulerResidual M i n (v i n) v k| ≤ εf + η * B := by
  intro v _ i hi n hn k hk
  simp only [eulerResidual]
  rw [← Finset.sum_sub_distrib]
  refine le_trans (Finset.abs_sum_le_sum_abs _ _) ?_
  have hterm : ∀ j ∈ Finset.range (M.dp.nInodes i),
      |w' i j * f' (M.dp.node i) (M.s n) (v i n) (M.dp.inode i j)
          (M.g (M.dp.node i) (M.s n) (v i n) (M.dp.inode i j))
          (M.interp v i j (M.g (M.dp.node i) (M.s n) (v i n) (M.dp.inode i j))) k
        - M.dp.iweight i j * M.f (M.dp.node i) (M.s n) (v i n) (M.dp.inode i j)
          (M.g (M.dp.node i) (M.s n) (v i n) (M.dp.inode i j))
          (M.interp v i j (M.g (M.dp.node i) (M.s n) (v i n) (M.dp.inode i j))) k|
      ≤ w' i j * εf + |w' i j - M.dp.iweight i j| * B := by
    intro j hj
    have h0 := hw i hi j (Finset.mem_range.1 hj)
    set a := f' (M.dp.node i) (M.s n) (v i n) (M.dp.inode i j)
          (M.g (M.dp.node i) (M.s n) (v i n) (M.dp.inode i j))
          (M.interp v i j (M.g (M.dp.node i) (M.s n) (v i n) (M.dp.inode i j))) k with ha
    set b := M.f (M.dp.node i) (M.s n) (v i n) (M.dp.inode i j)
          (M.g (M.dp.node i) (M.s n) (v i n) (M.dp.inode i j))
          (M.interp v i j (M.g (M.dp.node i) (M.s n) (v i n) (M.dp.inode i j))) k with hbd
    have h1 : |a - b| ≤ εf := hf _ _ _ _ _ _ k hk
    have h2 : |b| ≤ B := hB _ _ _ _ _ _ k hk
    have e : w' i j * a - M.dp.iweight i j * b = w' i j * (a - b) + (w' i j - M.dp.iweight i j) * b := by ring
    rw [e]
    refine le_trans (abs_add_le _ _) (add_le_add ?_ ?_)
    · rw [abs_mul, abs_of_nonneg h0]; exact mul_le_mul_of_nonneg_left h1 h0
    · rw [abs_mul]; exact mul_le_mul_of_nonneg_left h2 (abs_nonneg _)
  refine le_trans (Finset.sum_le_sum hterm) ?_
  rw [Finset.sum_add_distrib, ← Finset.sum_mul, ← Finset.sum_mul, hw1 i hi, one_mul]
  have := mul_le_mul_of_nonneg_right (hη i hi) hB0
  linarith

/-! ### A case -/

/-- The equation `x - X / 2 - a = 0`, with the equilibrium `x = 2 a`. -/
noncomputable def tiAffine (a : ℝ) : TIModel ℝ := { tiExample with f := fun _ _ x _ _ X k => x k - X k / 2 - a, lb := none, ub := none }

/-- The hypotheses of `C157_equilibria` are met by two equations of this kind, and the bound is attained: a change of `ε`
in the constant moves the equilibrium by `2 ε`. -/
example (ε : ℝ) (hε : 0 ≤ ε) :
    RuleChange (tiAffine 1) (tiAffine (1 + ε)) false false (fun _ _ _ => True) ε ∧
    OwnControls (tiAffine (1 + ε)) (fun _ _ _ => True) 1 1 ∧
    FutureLipschitz (tiAffine (1 + ε)) (fun _ _ _ => True) (1 / 2) ∧
    Equilibrium (tiAffine 1) false (fun _ _ _ => 2) ∧ Equilibrium (tiAffine (1 + ε)) false (fun _ _ _ => 2 + 2 * ε) ∧
    max (1 : ℝ) 1 / 1 * ε / (1 - 1 / 2 / 1) = 2 * ε := by
  have hres : ∀ a i n y v k, eulerResidual (tiAffine a) i n y v k = y k - v 0 0 k / 2 - a := by
    intro a i n y v k
    simp [eulerResidual, tiAffine, tiExample]
  refine ⟨⟨rfl, rfl, rfl, ?_, ?_, ?_⟩, ⟨one_pos, ?_, ?_⟩, ?_, ?_, ?_, ?_⟩
  · intro v _ i _ n _ k _
    rw [hres, hres]
    have e : v i n k - v 0 0 k / 2 - (1 + ε) - (v i n k - v 0 0 k / 2 - 1) = -ε := by ring
    rw [e, abs_neg, abs_of_nonneg hε]
  · intro i _ n _ k _; left; exact ⟨rfl, rfl⟩
  · intro i _ n _ k _; left; exact ⟨rfl, rfl⟩
  · intro v _ i _ n _ y z _ _ l hl
    refine ⟨l, hl, ?_⟩
    rw [hres, hres]
    apply le_of_eq; ring
  · intro v _ i _ n _ y z _ _ c _ hc k hk
    rw [hres, hres]
    have := hc k hk
    have e : y k - v 0 0 k / 2 - (1 + ε) - (z k - v 0 0 k / 2 - (1 + ε)) = y k - z k := by ring
    rw [e]; linarith
  · intro v v' c _ _ _ hw i hi n hn y _ k hk
    have h := hw 0 (by simp [tiAffine, tiExample]) 0 (by simp [tiAffine, tiExample]) k hk
    rw [hres, hres]
    have e : y k - v 0 0 k / 2 - (1 + ε) - (y k - v' 0 0 k / 2 - (1 + ε)) = -(1 / 2 * (v 0 0 k - v' 0 0 k)) := by ring
    rw [e, abs_neg, abs_mul, abs_of_pos (by norm_num : (0 : ℝ) < 1 / 2)]
    linarith
  · intro i _ n _ k _
    rw [hres]
    refine ⟨by simp [lowerAt], by simp [upperAt], fun h => ?_, fun h => ?_⟩ <;> norm_num at h
  · intro i _ n _ k _
    rw [hres]
    refine ⟨by simp [lowerAt], by simp [upperAt], fun h => ?_, fun h => ?_⟩ <;> exfalso <;> linarith
  · norm_num; ring

end Dolo
