import Mathlib.Data.Fin.VecNotation
import Mathlib.Tactic.FinCases
import Mathlib.Tactic.NormNum
import Verif.Model.Rouwenhorst
import Verif.Lemmas.Units
import Verif.Props.SaddlePath

/-!
# C139: units of measurement

The same problem with its variables measured in other units has the same solution, measured in those units.
-/

set_option linter.unusedSectionVars false

namespace Dolo

section
variable {K : Type} [Field K] [LinearOrder K] [IsStrictOrderedRing K]

/-! ### Newton's method -/

/-- **C139, `newton`.**  The unknowns are measured in other units (each of its own, with another origin), all equations are
multiplied by `c > 0`, and the tolerance with them: `newton` makes the same number of iterations, warns or not as before,
and returns the same point in the new units. -/
theorem C139_newton {N n : ℕ} {u v : ℕ → K} (hu : ∀ j < n, u j ≠ 0) {c : K} (hc : 0 < c)
    {f f' : (ℕ → ℕ → K) → (ℕ → ℕ → K) × (ℕ → ℕ → ℕ → K)} (hf : FunUnits N n u v (fun _ => c) f' f) (tol : K) (maxit : ℕ)
    (x x' : ℕ → ℕ → K) (hx : InUnits N n u v x' x)
    (hns : ∀ j < maxit, ∀ p < N, Nonsingular n ((f ((serialProblem N n f).next^[j] x)).2 p)) :
    (newton (serialProblem N n f') (c * tol) maxit x').it = (newton (serialProblem N n f) tol maxit x).it ∧
    (newton (serialProblem N n f') (c * tol) maxit x').warned = (newton (serialProblem N n f) tol maxit x).warned ∧
    InUnits N n u v (newton (serialProblem N n f') (c * tol) maxit x').x (newton (serialProblem N n f) tol maxit x).x :=
  newtonLoop_units hu hc hf tol maxit 0 x x' hx hns

/-- **C139, the Newton step.**  If the equations are multiplied by different numbers, the norm of the residuals is another
one, but the points tried (`x - dx / 2^b`) are the same. -/
theorem C139_newton_step {N n : ℕ} {u v w : ℕ → K} (hu : ∀ j < n, u j ≠ 0) (hw : ∀ i < n, w i ≠ 0)
    {f f' : (ℕ → ℕ → K) → (ℕ → ℕ → K) × (ℕ → ℕ → ℕ → K)} (hf : FunUnits N n u v w f' f) {x x' : ℕ → ℕ → K}
    (hx : InUnits N n u v x' x) (hns : ∀ p < N, Nonsingular n ((f x).2 p)) (b : ℕ) :
    InUnits N n u v ((serialProblem N n f').trial x' (serialStep N n (f' x').2 (f' x').1) b)
      ((serialProblem N n f).trial x (serialStep N n (f x).2 (f x).1) b) :=
  trial_units hu hw hf hx hns b

/-! ### Grids -/

/-- The coordinates of a point in other units. -/
def affRow (u v : ℕ → K) (row : List K) : List K := row.mapIdx fun i x => u i * x + v i

theorem affRow_cons (u v : ℕ → K) (x : K) (row : List K) :
    affRow u v (x :: row) = (u 0 * x + v 0) :: affRow (fun i => u (i + 1)) (fun i => v (i + 1)) row := by
  simp [affRow, List.mapIdx_cons]

theorem linspace_units (u v a b : K) (n : ℕ) :
    linspace (u * a + v) (u * b + v) n = (linspace a b n).map fun x => u * x + v := by
  unfold linspace
  rw [List.map_map]
  refine List.map_congr_left fun i _ => ?_
  by_cases h : n ≤ 1
  · simp [h]
  · simp only [Function.comp_apply, if_neg h]
    ring

/-- The axes in other units. -/
def affAxes (u v : ℕ → K) (axes : List (List K)) : List (List K) :=
  axes.mapIdx fun i l => l.map fun x => u i * x + v i

theorem affAxes_cons (u v : ℕ → K) (a : List K) (l : List (List K)) :
    affAxes u v (a :: l) = (a.map fun x => u 0 * x + v 0) :: affAxes (fun i => u (i + 1)) (fun i => v (i + 1)) l := by
  simp [affAxes, List.mapIdx_cons]

theorem linspaces_units (a : List K) : ∀ (u v : ℕ → K) (b : List K) (n : List ℕ),
    linspaces (affRow u v a) (affRow u v b) n = (linspaces a b n).map (affAxes u v) := by
  induction a with
  | nil => intro u v b n; simp [affRow, linspaces, Except.map, affAxes]
  | cons a0 as ih =>
    intro u v b n
    rw [affRow_cons]
    rcases b with _ | ⟨b0, bs⟩
    · simp [affRow, linspaces, Except.map]
    · rcases n with _ | ⟨n0, ns⟩
      · simp [affRow_cons, linspaces, Except.map]
      · rw [affRow_cons]
        simp only [linspaces, ih]
        rcases linspaces as bs ns with e | r
        · rfl
        · simp [Except.map, Bind.bind, Except.bind, pure, Except.pure, affAxes_cons, linspace_units]

theorem npRepeat_map {α β : Type} (f : α → β) (a : List α) (m : ℕ) : npRepeat (a.map f) m = (npRepeat a m).map f := by
  simp [npRepeat, List.flatMap_map, List.map_flatMap]

theorem cartesianCore_units : ∀ (axes : List (List K)) (u v : ℕ → K),
    cartesianCore id (affAxes u v axes) = (cartesianCore id axes).map (affRow u v)
  | [], u, v => by simp [affAxes, cartesianCore]
  | [a], u, v => by
    simp [affAxes_cons, affAxes, cartesianCore, npRepeat_map, affRow]
  | a :: b :: rest, u, v => by
    have ih := cartesianCore_units (b :: rest) (fun i => u (i + 1)) (fun i => v (i + 1))
    have hl : ∀ (l : List (List K)) (u v : ℕ → K), (affAxes u v l).map List.length = l.map List.length := by
      intro l
      induction l with
      | nil => intro u v; simp [affAxes]
      | cons x l ih => intro u v; simp [affAxes_cons, ih]
    rw [affAxes_cons]
    have e : ∀ (c : List K) (r : List (List K)), affAxes (fun i => u (i + 1)) (fun i => v (i + 1)) (b :: rest) = c :: r →
        cartesianCore id ((a.map fun x => u 0 * x + v 0) :: c :: r)
          = (cartesianCore id (a :: b :: rest)).map (affRow u v) := by
      intro c r hcr
      have h2 := hl (b :: rest) (fun i => u (i + 1)) (fun i => v (i + 1))
      rw [hcr] at ih h2
      simp only [cartesianCore, List.map_id, ih, List.length_map]
      rw [List.map_cons, h2, List.map_cons, List.length_map, npRepeat_map, List.map_zipWith, ← List.map_replicate,
        ← List.map_flatten, List.zipWith_map]
      congr 1
      funext x y
      rw [affRow_cons]
    rw [affAxes_cons]
    exact e _ _ (affAxes_cons _ _ _ _)

/-- **C139, grids.**  A uniform Cartesian grid between bounds given in other units is the grid in those units. -/
theorem C139_grid (u v : ℕ → K) (min max : List K) (n : List ℕ) :
    UniformGrid.mk' (affRow u v min) (affRow u v max) n
      = (UniformGrid.mk' min max n).map fun g => ⟨affRow u v g.min, affRow u v g.max, g.n, g.nodes.map (affRow u v)⟩ := by
  unfold UniformGrid.mk' mlinspace
  by_cases hn : n.length = 0
  · rw [if_pos hn, if_pos hn]
    rfl
  · rw [if_neg hn, if_neg hn, linspaces_units]
    rcases linspaces min max n with e | axes
    · rfl
    · rcases axes with _ | ⟨a, rest⟩
      · rfl
      · have := cartesianCore_units (a :: rest) u v
        rw [affAxes_cons] at this
        simp only [Except.map, Bind.bind, Except.bind, pure, Except.pure, cartesian, affAxes_cons, this]

/-! ### Discretisation of shocks -/

/-- `sqrt` is a square root. -/
def IsSqrt (sqrt : K → K) : Prop := ∀ x, 0 ≤ x → 0 ≤ sqrt x ∧ sqrt x ^ 2 = x

theorem IsSqrt.scale {sqrt : K → K} (h : IsSqrt sqrt) {c x : K} (hc : 0 < c) (hx : 0 ≤ x) :
    sqrt (c ^ 2 * x) = c * sqrt x := by
  have h1 := h x hx
  have h2 := h (c ^ 2 * x) (mul_nonneg (sq_nonneg c) hx)
  refine (pow_left_inj₀ h2.1 (mul_nonneg hc.le h1.1) two_ne_zero).1 ?_
  rw [h2.2, mul_pow, h1.2]

/-- **C139, `rouwenhorst`.**  In other units the nodes are multiplied, and the transition matrix is the same. -/
theorem C139_rouwenhorst (sqrt : K → K) (rho sigma c : K) (N : ℕ) :
    rouwenhorst sqrt rho (c * sigma) N
      = ((rouwenhorst sqrt rho sigma N).1.map (c * ·), (rouwenhorst sqrt rho sigma N).2) := by
  have e : ∀ a : K, linspace (-(a * (c * sigma))) (a * (c * sigma)) N
      = (linspace (-(a * sigma)) (a * sigma) N).map (c * ·) := by
    intro a
    have := linspace_units c 0 (-(a * sigma)) (a * sigma) N
    simp only [add_zero] at this
    rw [← this]
    congr 1 <;> ring
  unfold rouwenhorst
  by_cases h1 : N = 1
  · simp [h1]
  · by_cases h2 : N = 2
    · simp only [if_neg h1, if_pos h2, e]
    · simp only [if_neg h1, if_neg h2, e]

/-- **C139, `tauchen`.** -/
theorem C139_tauchen {sqrt : K → K} (hsqrt : IsSqrt sqrt) (cdf : K → K) (N : ℕ) (mu rho sigma m c : K) (hc : 0 < c)
    (hrho : rho ^ 2 < 1) :
    tauchen sqrt cdf N (c * mu) rho (c * sigma) m
      = (tauchen sqrt cdf N mu rho sigma m).map fun r => (r.1.map (c * ·), r.2) := by
  have hs : sqrt ((c * sigma) ^ 2 / (1 - rho ^ 2)) = c * sqrt (sigma ^ 2 / (1 - rho ^ 2)) := by
    rw [mul_pow, mul_div_assoc]
    exact hsqrt.scale hc (div_nonneg (sq_nonneg _) (by linarith))
  unfold tauchen
  by_cases h0 : N = 0
  · simp [h0, Except.map]
  by_cases h1 : N = 1
  · simp [h1, Except.map]
  simp only [if_neg h0, if_neg h1, hs, Except.map]
  generalize sqrt (sigma ^ 2 / (1 - rho ^ 2)) = s
  have hZ : ∀ i : ℕ, (-1 * (m * (c * s)) + (m * (c * s) - -1 * (m * (c * s))) / ((N : K) - 1) * (i : K))
        + (1 - rho) * (c * mu) / (1 - rho)
      = c * ((-1 * (m * s) + (m * s - -1 * (m * s)) / ((N : K) - 1) * (i : K)) + (1 - rho) * mu / (1 - rho)) := by
    intro i
    ring
  have hstep : (m * (c * s) - -1 * (m * (c * s))) / ((N : K) - 1) = c * ((m * s - -1 * (m * s)) / ((N : K) - 1)) := by ring
  have ha : (1 - rho) * (c * mu) = c * ((1 - rho) * mu) := by ring
  simp only [hZ]
  simp only [hstep, ha, Except.ok.injEq, Prod.mk.injEq]
  generalize (m * s - -1 * (m * s)) / ((N : K) - 1) = st
  generalize (1 - rho) * mu = a
  have hup : ∀ z z' : K, (c * z - c * a - rho * (c * z') + c * st / 2) / (c * sigma) = (z - a - rho * z' + st / 2) / sigma := by
    intro z z'
    rw [← mul_div_mul_left _ sigma hc.ne']
    congr 1
    ring
  have hdn : ∀ z z' : K, (c * z - c * a - rho * (c * z') - c * st / 2) / (c * sigma) = (z - a - rho * z' - st / 2) / sigma := by
    intro z z'
    rw [← mul_div_mul_left _ sigma hc.ne']
    congr 1
    ring
  refine ⟨?_, ?_⟩
  · rw [List.map_map]
    rfl
  · simp only [hup, hdn]

/-- **C139, normal variables in dimension one** (`UNormal.discretize` with Gauss-Hermite nodes). -/
theorem C139_unormal {sqrt : K → K} (hsqrt : IsSqrt sqrt) (rule : Rule K) (mu sigma c : K) (hc : 0 < c) :
    unormalDiscretizeGh sqrt rule (c * mu) (c * sigma)
      = (unormalDiscretizeGh sqrt rule mu sigma).map fun D => ⟨D.points.map (List.map (c * ·)), D.weights⟩ := by
  unfold unormalDiscretizeGh
  have hs : sqrt ((c * sigma) ^ 2) = c * sqrt (sigma ^ 2) := by
    rw [mul_pow]
    exact hsqrt.scale hc (sq_nonneg _)
  have hp : ∀ x : K, x * (c * sqrt (sigma ^ 2)) + c * mu = c * (x * sqrt (sigma ^ 2) + mu) := fun x => by ring
  by_cases h : rule.weights.length = rule.points.length
  · simp [gaussHermiteNodes, hs, Bind.bind, Except.bind, Except.map, FiniteDist.mk', h, hp]
  · simp [gaussHermiteNodes, Bind.bind, Except.bind, Except.map, FiniteDist.mk', h]

/-- The covariance matrix of shocks measured in other units. -/
def covUnits {d : ℕ} (u : ℕ → K) (sigma : Fin d → Fin d → K) : Fin d → Fin d → K := fun a b => u a * sigma a b * u b

theorem fillDiag_id {d : ℕ} {sigma : Fin d → Fin d → K} (h : ∀ i, ∑ j, sigma j i ≠ 0) : fillDiag sigma = sigma := by
  funext a b
  simp [fillDiag, zeroColumns, h]

theorem zeroColumns_none {d : ℕ} {sigma : Fin d → Fin d → K} (h : ∀ i, ∑ j, sigma j i ≠ 0) :
    zeroColumns sigma = fun _ => false := by
  funext a
  simp [zeroColumns, h]

theorem mask_none {d : ℕ} (row : List K) (h : row.length = d) :
    List.zipWith (fun (z : Bool) v => if z then 0 else v) (List.ofFn fun _ : Fin d => false) row = row := by
  refine List.ext_getElem (by simp [h]) fun i h1 h2 => ?_
  simp

/-- **C139 (partial), correlated normal shocks** (`Normal.discretize`).  Each shock may be measured in units of its own.  The code
treats a shock as degenerate when its column of the covariance matrix has sum zero; the theorem is for covariance
matrices without such columns, before and after.  With one it is false, see `C139_normal_fails`. -/
theorem C139_normal_partial {d : ℕ} {sqrt : K → K} (hsqrt : IsSqrt sqrt)
    {chol : (Fin d → Fin d → K) → Except Err (Fin d → Fin d → K)} (hchol : LowerCholesky chol)
    (rules : List (Rule K)) (sigma : Fin d → Fin d → K) (mu : Fin d → K) (u : ℕ → K) (hu : ∀ i, 0 < u i)
    (hpos : ∀ i, 0 ≤ sigma i i) (h0 : ∀ i, ∑ j, sigma j i ≠ 0) (h0' : ∀ i, ∑ j, covUnits u sigma j i ≠ 0) :
    normalDiscretize sqrt chol rules (covUnits u sigma) (fun i => u i * mu i)
      = (normalDiscretize sqrt chol rules sigma mu).map fun D => ⟨D.points.map (affRow u fun _ => 0), D.weights⟩ := by
  unfold normalDiscretize
  rcases rules with _ | ⟨r, rest⟩
  · rfl
  rcases rest with _ | ⟨r2, rest⟩
  · by_cases hd : d = 1
    · subst hd
      have hs : sqrt (covUnits u sigma 0 0) = u 0 * sqrt (sigma 0 0) := by
        have : covUnits u sigma 0 0 = u 0 ^ 2 * sigma 0 0 := by simp only [covUnits, Fin.val_zero]; ring
        rw [this]
        exact hsqrt.scale (hu 0) (hpos 0)
      have hp : ∀ x : K, x * (u 0 * sqrt (sigma 0 0)) + u 0 * mu 0 = u 0 * (x * sqrt (sigma 0 0) + mu 0) := fun x => by ring
      by_cases h : r.weights.length = r.points.length
      · simp [gaussHermiteNodes, hs, Bind.bind, Except.bind, Except.map, FiniteDist.mk', h, hp, affRow]
      · simp [gaussHermiteNodes, Bind.bind, Except.bind, Except.map, FiniteDist.mk', h]
    · simp [gaussHermiteNodes, hd, Bind.bind, Except.bind, Except.map]
  · simp only [gaussHermiteNodes, fillDiag_id h0, fillDiag_id h0', zeroColumns_none h0, zeroColumns_none h0']
    have hc := chol_units hchol sigma (u := fun i : Fin d => u i) fun i => hu i
    change chol (covUnits u sigma) = _ at hc
    rw [hc]
    rcases cartesian (List.map Rule.points (r :: r2 :: rest)) with e | x
    · rfl
    rcases chol sigma with e | L
    · rfl
    by_cases hd : (r :: r2 :: rest).length ≠ d
    · simp only [Except.map, Bind.bind, Except.bind, if_pos hd]
    · simp only [Except.map, Bind.bind, Except.bind, if_neg hd, pure, Except.pure]
      have hrow : ∀ z : List K,
          List.zipWith (· + ·) (List.zipWith (fun (z : Bool) v => if z then 0 else v) (List.ofFn fun _ : Fin d => false)
            (List.zipWith (· + ·) (matVec (fun a b => u a * L a b) z) (List.ofFn fun i : Fin d => u i * mu i)))
            (List.ofFn fun i : Fin d => u i * mu i)
          = affRow u (fun _ => 0) (List.zipWith (· + ·)
            (List.zipWith (fun (z : Bool) v => if z then 0 else v) (List.ofFn fun _ : Fin d => false)
              (List.zipWith (· + ·) (matVec L z) (List.ofFn mu))) (List.ofFn mu)) := by
        intro z
        rw [mask_none _ (by simp [matVec]), mask_none _ (by simp [matVec])]
        refine List.ext_getElem (by simp [affRow, matVec]) fun i h1 h2 => ?_
        simp only [List.getElem_zipWith, matVec, List.getElem_ofFn, affRow, List.getElem_mapIdx, add_zero, mul_add,
          Finset.mul_sum, mul_assoc]
      unfold FiniteDist.mk'
      simp only [List.map_map, List.length_map]
      generalize List.foldl (fun w r => kronVec w r.weights) r.weights (r2 :: rest) = w
      by_cases hw : w.length = x.length
      · simp only [if_pos hw, List.map_map, Except.ok.injEq, FiniteDist.mk.injEq, and_true]
        refine List.map_congr_left fun z _ => ?_
        simp only [Function.comp_apply]
        exact hrow z
      · simp only [if_neg hw]

/-- **C139 (partial), vector autoregressions** (`VAR1.discretize_mc`, via `multidimensional_discretization`).  When *all* variables are
measured in units `c` times smaller, the nodes are multiplied by `c`, and the transition matrix is the same.
Missing: units which differ between variables, where this is false, see `C139_var1_fails`. -/
theorem C139_var1_partial {d : ℕ} {chol : (Fin d → Fin d → K) → Except Err (Fin d → Fin d → K)} (hchol : UpperCholesky chol)
    (chain : List K × List (List K)) (sigma : Fin d → Fin d → K) (c : K) (hc : 0 < c) (h0 : ∀ i, ∑ j, sigma j i ≠ 0) :
    multidimDisc chol chain (covUnits (fun _ => c) sigma)
      = (multidimDisc chol chain sigma).map fun r => (r.1.map (List.map (c * ·)), r.2) := by
  have h0' : ∀ i, ∑ j, covUnits (fun _ => c) sigma j i ≠ 0 := by
    intro i
    have : ∑ j, covUnits (fun _ => c) sigma j i = c * (∑ j, sigma j i) * c := by
      rw [Finset.mul_sum, Finset.sum_mul]
      rfl
    rw [this]
    exact mul_ne_zero (mul_ne_zero hc.ne' (h0 i)) hc.ne'
  unfold multidimDisc
  rw [fillDiag_id h0, fillDiag_id h0', zeroColumns_none h0, zeroColumns_none h0']
  have hq := upperChol_units hchol sigma hc
  change chol (covUnits (fun _ => c) sigma) = _ at hq
  rw [hq]
  rcases chol sigma with e | L
  · rfl
  simp only [Except.map, Bind.bind, Except.bind, pure, Except.pure, Except.ok.injEq, Prod.mk.injEq, and_true, List.map_map]
  refine List.map_congr_left fun z _ => ?_
  simp only [Function.comp_apply]
  rw [mask_none _ (by simp [matVec]), mask_none _ (by simp [matVec])]
  refine List.ext_getElem (by simp [matVec]) fun i h1 h2 => ?_
  simp only [matVec, List.getElem_ofFn, List.getElem_map, Finset.mul_sum, mul_assoc]

end

/-! ### Where units matter -/

/-- **C139, absolute tolerances.**  The tolerance of `newton` is compared with the residuals in whatever units they have: for
`x - 1 = 0` from `0` it returns `1`; with the equation multiplied by `1/10^9` it returns the starting point, without a warning. -/
theorem C139_newton_tolerance_fails :
    let f : ℚ → (ℕ → ℕ → ℚ) → (ℕ → ℕ → ℚ) × (ℕ → ℕ → ℕ → ℚ) := fun c x => (fun p i => c * (x p i - 1), fun _ _ _ => c)
    let tol : ℚ := 1 / 10 ^ 8
    (newton (serialProblem 1 1 (f 1)) tol 10 0).x 0 0 = 1 ∧ (newton (serialProblem 1 1 (f 1)) tol 10 0).warned = false ∧
    (newton (serialProblem 1 1 (f (1 / 10 ^ 9))) tol 10 0).x 0 0 = 0 ∧
    (newton (serialProblem 1 1 (f (1 / 10 ^ 9))) tol 10 0).warned = false := by
  decide +kernel

/-- **C139, correlated shocks.**  Two shocks with variances 1 and 2 and covariance -1.  The column of the first one has sum zero,
and `Normal.discretize` takes it for a constant.  With the second shock measured in halves (variance 8, covariance -2) it
does not. -/
theorem C139_normal_fails {sqrt : ℝ → ℝ} {chol : (Fin 2 → Fin 2 → ℝ) → Except Err (Fin 2 → Fin 2 → ℝ)}
    (hchol : LowerCholesky chol) :
    let rule : Rule ℝ := ⟨[-1, 1], [1 / 2, 1 / 2]⟩
    ∃ D D', normalDiscretize sqrt chol [rule, rule] ![![1, -1], ![-1, 2]] 0 = .ok D ∧
      normalDiscretize sqrt chol [rule, rule] (covUnits (fun i => if i = 0 then 1 else 2) ![![1, -1], ![-1, 2]]) 0 = .ok D' ∧
      (∀ x ∈ D.points, x.getD 0 0 = 0) ∧ ∀ x ∈ D'.points, x.getD 0 0 = 1 ∨ x.getD 0 0 = -1 := by
  intro rule
  have e1 : fillDiag (![![1, -1], ![-1, 2]] : Fin 2 → Fin 2 → ℝ) = ![![1, -1], ![-1, 2]] := by
    funext a b
    fin_cases a <;> fin_cases b <;> norm_num [fillDiag, zeroColumns]
  have z1 : zeroColumns (![![1, -1], ![-1, 2]] : Fin 2 → Fin 2 → ℝ) = ![true, false] := by
    funext a
    fin_cases a <;> norm_num [zeroColumns]
  have e2 : covUnits (fun i => if i = 0 then 1 else 2) (![![1, -1], ![-1, 2]] : Fin 2 → Fin 2 → ℝ) = ![![1, -2], ![-2, 8]] := by
    funext a b
    fin_cases a <;> fin_cases b <;> norm_num [covUnits]
  have hz : ∀ i, ∑ j, (![![1, -2], ![-2, 8]] : Fin 2 → Fin 2 → ℝ) j i ≠ 0 := by
    intro i
    fin_cases i <;> norm_num
  have c1 : chol ![![1, -1], ![-1, 2]] = .ok ![![1, 0], ![-1, 1]] := by
    rw [hchol.1]
    refine ⟨fun a b h => ?_, fun a => ?_, fun a b => ?_⟩
    · fin_cases a <;> fin_cases b <;> simp_all
    · fin_cases a <;> simp
    · fin_cases a <;> fin_cases b <;> norm_num
  have c2 : chol ![![1, -2], ![-2, 8]] = .ok ![![1, 0], ![-2, 2]] := by
    rw [hchol.1]
    refine ⟨fun a b h => ?_, fun a => ?_, fun a b => ?_⟩
    · fin_cases a <;> fin_cases b <;> simp_all
    · fin_cases a <;> simp
    · fin_cases a <;> fin_cases b <;> norm_num
  have hcart : cartesian [rule.points, rule.points] = .ok [[-1, -1], [-1, 1], [1, -1], [1, 1]] := by
    simp [rule, cartesian, cartesianCore, npRepeat]
  rw [e2]
  unfold normalDiscretize
  simp only [gaussHermiteNodes, e1, z1, c1, List.map_cons, List.map_nil, hcart, Bind.bind, Except.bind, pure, Except.pure,
    fillDiag_id hz, zeroColumns_none hz, c2]
  simp [FiniteDist.mk', kronVec, rule, matVec]

/-- **C139, vector autoregressions.**  Innovations with covariance matrix `(4 2; 2 2)`: the third node (with the chain on
-1, 1) is `(1, -1)`.  With the second variable measured in halves it is `(0, -2)` instead of `(1, -2)`. -/
theorem C139_var1_fails {chol : (Fin 2 → Fin 2 → ℝ) → Except Err (Fin 2 → Fin 2 → ℝ)} (hchol : UpperCholesky chol) (T : List (List ℝ)) :
    ∃ r r', multidimDisc chol ([-1, 1], T) ![![4, 2], ![2, 2]] = .ok r ∧
      multidimDisc chol ([-1, 1], T) (covUnits (fun i => if i = 0 then 1 else 2) ![![4, 2], ![2, 2]]) = .ok r' ∧
      r.1.getD 2 [] = [1, -1] ∧ r'.1.getD 2 [] = [0, -2] := by
  have e2 : covUnits (fun i => if i = 0 then 1 else 2) (![![4, 2], ![2, 2]] : Fin 2 → Fin 2 → ℝ) = ![![4, 4], ![4, 8]] := by
    funext a b
    fin_cases a <;> fin_cases b <;> norm_num [covUnits]
  have hz1 : ∀ i, ∑ j, (![![4, 2], ![2, 2]] : Fin 2 → Fin 2 → ℝ) j i ≠ 0 := by
    intro i
    fin_cases i <;> norm_num
  have hz : ∀ i, ∑ j, (![![4, 4], ![4, 8]] : Fin 2 → Fin 2 → ℝ) j i ≠ 0 := by
    intro i
    fin_cases i <;> norm_num
  have c1 : chol ![![4, 2], ![2, 2]] = .ok ![![2, 1], ![0, 1]] := by
    rw [hchol.1]
    refine ⟨fun a b h => ?_, fun a => ?_, fun a b => ?_⟩
    · fin_cases a <;> fin_cases b <;> simp_all
    · fin_cases a <;> simp
    · fin_cases a <;> fin_cases b <;> norm_num
  have c2 : chol ![![4, 4], ![4, 8]] = .ok ![![2, 2], ![0, 2]] := by
    rw [hchol.1]
    refine ⟨fun a b h => ?_, fun a => ?_, fun a b => ?_⟩
    · fin_cases a <;> fin_cases b <;> simp_all
    · fin_cases a <;> simp
    · fin_cases a <;> fin_cases b <;> norm_num
  rw [e2]
  unfold multidimDisc
  simp only [fillDiag_id hz1, zeroColumns_none hz1, c1, Bind.bind, Except.bind, pure, Except.pure, fillDiag_id hz,
    zeroColumns_none hz, c2]
  refine ⟨_, _, rfl, rfl, ?_, ?_⟩ <;> norm_num [itertoolsProduct, matVec, List.replicate]

/-! ### The linearised model -/

section
open Matrix
variable {ns nx : ℕ} {g_s : Matrix (Fin ns) (Fin ns) ℝ} {g_x : Matrix (Fin ns) (Fin nx) ℝ}
  {f_s : Matrix (Fin nx) (Fin ns) ℝ} {f_x : Matrix (Fin nx) (Fin nx) ℝ}
  {f_S : Matrix (Fin nx) (Fin ns) ℝ} {f_X : Matrix (Fin nx) (Fin nx) ℝ}

/-- **C139, perturbation.**  The states are measured by `U s`, the controls by `V x`, and the arbitrage equations are combined
by `W` (all invertible: diagonal matrices change the units).  The saddle path of the model so written is the saddle path of
the original model in the new units: its rule is `V C U⁻¹`. -/
theorem C139_perturbation {C : Matrix (Fin nx) (Fin ns) ℝ} (U U' : Matrix (Fin ns) (Fin ns) ℝ)
    (V V' W W' : Matrix (Fin nx) (Fin nx) ℝ) (hU : U' * U = 1) (hV : V' * V = 1) (hW : W' * W = 1)
    (h : SaddlePath g_s g_x f_s f_x f_S f_X C) :
    SaddlePath (U * g_s * U') (U * g_x * V') (W * f_s * U') (W * f_x * V') (W * f_S * U') (W * f_X * V') (V * C * U') := by
  have hU2 : U * U' = 1 := _root_.mul_eq_one_comm.1 hU
  have hV2 : V * V' = 1 := _root_.mul_eq_one_comm.1 hV
  intro s x
  have main := h (fun t => U' *ᵥ s t) (fun t => V' *ᵥ x t)
  have bU : BoundedSeq (fun t => U' *ᵥ s t) ↔ BoundedSeq s := by
    refine ⟨fun q => ?_, bounded_mulVec U'⟩
    have := bounded_mulVec U q
    simpa [Matrix.mulVec_mulVec, hU2] using this
  have bV : BoundedSeq (fun t => V' *ᵥ x t) ↔ BoundedSeq x := by
    refine ⟨fun q => ?_, bounded_mulVec V'⟩
    have := bounded_mulVec V q
    simpa [Matrix.mulVec_mulVec, hV2] using this
  have injU : ∀ a b : Fin ns → ℝ, U' *ᵥ a = b ↔ a = U *ᵥ b := by
    intro a b
    constructor
    · rintro rfl
      simp [Matrix.mulVec_mulVec, hU2]
    · rintro rfl
      simp [Matrix.mulVec_mulVec, hU]
  have injV : ∀ a b : Fin nx → ℝ, V' *ᵥ a = b ↔ a = V *ᵥ b := by
    intro a b
    constructor
    · rintro rfl
      simp [Matrix.mulVec_mulVec, hV2]
    · rintro rfl
      simp [Matrix.mulVec_mulVec, hV]
  have injW : ∀ a : Fin nx → ℝ, W *ᵥ a = 0 ↔ a = 0 := by
    intro a
    constructor
    · intro q
      have := congrArg (fun y => W' *ᵥ y) q
      simpa [Matrix.mulVec_mulVec, hW] using this
    · rintro rfl
      simp
  have hp : LinearPath g_s g_x f_s f_x f_S f_X (fun t => U' *ᵥ s t) (fun t => V' *ᵥ x t)
      ↔ LinearPath (U * g_s * U') (U * g_x * V') (W * f_s * U') (W * f_x * V') (W * f_S * U') (W * f_X * V') s x := by
    unfold LinearPath
    refine and_congr (forall_congr' fun t => ?_) (forall_congr' fun t => ?_)
    · rw [injU]
      simp only [Matrix.mulVec_add, Matrix.mulVec_mulVec, Matrix.mul_assoc]
    · rw [← injW]
      simp only [Matrix.mulVec_add, Matrix.mulVec_mulVec, Matrix.mul_assoc]
  rw [hp, bU, bV] at main
  rw [main]
  refine forall_congr' fun t => and_congr ?_ ?_
  · rw [injV]
    simp only [Matrix.mulVec_mulVec, Matrix.mul_assoc]
  · rw [injU]
    have e : U * g_s * U' + U * g_x * V' * (V * C * U') = U * (g_s + g_x * C) * U' := by
      have : U * g_x * V' * (V * C * U') = U * g_x * (V' * V) * C * U' := by simp only [Matrix.mul_assoc]
      rw [this, hV, Matrix.mul_one, Matrix.mul_add, Matrix.add_mul]
      simp only [Matrix.mul_assoc]
    rw [e]
    simp only [Matrix.mulVec_mulVec, Matrix.mul_assoc]

/-- **C139, perturbation.**  So whatever the code finds for the model in other units (`C137_saddle_path`: it finds the saddle
path) is the rule `V C U⁻¹`. -/
theorem C139_perturbation_rule {C C' : Matrix (Fin nx) (Fin ns) ℝ} (U U' : Matrix (Fin ns) (Fin ns) ℝ)
    (V V' W W' : Matrix (Fin nx) (Fin nx) ℝ) (hU : U' * U = 1) (hV : V' * V = 1) (hW : W' * W = 1)
    (h : SaddlePath g_s g_x f_s f_x f_S f_X C)
    (h' : SaddlePath (U * g_s * U') (U * g_x * V') (W * f_s * U') (W * f_x * V') (W * f_S * U') (W * f_X * V') C') :
    C' = V * C * U' :=
  C137_unique (C139_perturbation U U' V V' W W' hU hV hW h) h'

/-- The price of a dividend (the rule is `4/3`) with dividends in cents and prices in dollars: `4/300`. -/
example : SaddlePath (.of fun _ _ => 1 / 2) (0 : Matrix (Fin 1) (Fin 1) ℝ) (.of fun _ _ => -2 / 100) (.of fun _ _ => 2)
    (0 : Matrix (Fin 1) (Fin 1) ℝ) (.of fun _ _ => -1) (.of fun _ _ => 4 / 300) := by
  have h := C139_perturbation (.of fun _ _ => 100) (.of fun _ _ => 1 / 100) 1 1 1 1
    (by ext i j; fin_cases i; fin_cases j; norm_num [Matrix.mul_apply]) (Matrix.mul_one 1) (Matrix.mul_one 1) saddleS
  convert h using 1
  all_goals ext i j; fin_cases i; fin_cases j; norm_num [Matrix.mul_apply]

end

/-! ### Cases meeting the hypotheses -/

/-- `2 x - 6 = 0`, with `x` in degrees Celsius, and with `x` in degrees Fahrenheit (and the equation multiplied by 5). -/
example : FunUnits (K := ℚ) 1 1 (fun _ => 9 / 5) (fun _ => 32) (fun _ => 5)
      (fun x => (fun p i => 50 / 9 * (x p i - 32) - 30, fun _ _ _ => 50 / 9)) (fun x => (fun p i => 2 * x p i - 6, fun _ _ _ => 2)) ∧
    InUnits (K := ℚ) 1 1 (fun _ => 9 / 5) (fun _ => 32) (fun _ _ => 50) (fun _ _ => 10) ∧
    Nonsingular (K := ℚ) 1 (fun _ _ => 2) := by
  refine ⟨fun x' x h => ⟨fun p hp i hi => ?_, fun p hp i hi j hj => by norm_num⟩, fun p hp i hi => by norm_num, fun y h j hj => ?_⟩
  · dsimp only
    rw [h p hp i hi]
    ring
  · have := h 0 (by norm_num)
    obtain rfl : j = 0 := by omega
    simpa using this

/-- There are such Cholesky functions and square roots, and such a covariance matrix. -/
example : (∃ chol : (Fin 2 → Fin 2 → ℝ) → Except Err (Fin 2 → Fin 2 → ℝ), LowerCholesky chol) ∧
    (∃ chol : (Fin 2 → Fin 2 → ℝ) → Except Err (Fin 2 → Fin 2 → ℝ), UpperCholesky chol) ∧
    IsSqrt Real.sqrt ∧
    (∀ i, ∑ j, (![![2, 1], ![1, 2]] : Fin 2 → Fin 2 → ℝ) j i ≠ 0) ∧
    (∀ i, ∑ j, covUnits (fun i => if i = 0 then 1 else 2) (![![2, 1], ![1, 2]] : Fin 2 → Fin 2 → ℝ) j i ≠ 0) ∧
    LowerFactor (![![4, 2], ![2, 2]] : Fin 2 → Fin 2 → ℝ) ![![2, 0], ![1, 1]] := by
  refine ⟨exists_lowerCholesky, ?_, fun x hx => ⟨Real.sqrt_nonneg x, Real.sq_sqrt hx⟩, ?_, ?_, ?_, ?_, ?_⟩
  · obtain ⟨chol, h⟩ := exists_lowerCholesky (K := ℝ) (d := 2)
    exact ⟨_, h.transpose⟩
  · intro i
    fin_cases i <;> norm_num
  · intro i
    fin_cases i <;> norm_num [covUnits]
  · intro a b h
    fin_cases a <;> fin_cases b <;> simp_all
  · intro a
    fin_cases a <;> simp
  · intro a b
    fin_cases a <;> fin_cases b <;> norm_num

/-- A grid in metres and kilograms, and in centimetres and grams. -/
example : (UniformGrid.mk' (K := ℚ) [0, 1] [1, 3] [2, 2]).map UniformGrid.nodes = .ok [[0, 1], [0, 3], [1, 1], [1, 3]] ∧
    (UniformGrid.mk' (K := ℚ) [0, 1000] [100, 3000] [2, 2]).map UniformGrid.nodes
      = .ok [[0, 1000], [0, 3000], [100, 1000], [100, 3000]] := by
  decide +kernel

end Dolo
