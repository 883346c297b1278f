import Mathlib.Algebra.BigOperators.Fin
import Mathlib.Topology.Algebra.Order.LiminfLimsup
import Mathlib.Analysis.SpecificLimits.Basic
import Verif.Props.Howard

/-!
# C145: the value of a policy is the expected discounted sum of utilities
-/

set_option linter.unusedSectionVars false

namespace Dolo

open Finset

/-! ### Specification -/

variable {σ : Type} [Fintype σ] {K : Type} [Field K]

/-- The states gone through by a path that starts in `a` and moves on to `p 0`, `p 1`, ... -/
def visits {k : ℕ} (a : σ) (p : Fin k → σ) : Fin (k + 1) → σ := Fin.cons a p

/-- The probability of the path, `Q x y` being the probability of a move from `x` to `y`. -/
def pathProb {k : ℕ} (Q : σ → σ → K) (a : σ) (p : Fin k → σ) : K :=
  ∏ t : Fin k, Q (visits a p t.castSucc) (visits a p t.succ)

/-- The discounted sum of the utilities of the first `k` dates of the path. -/
def pathUtility {k : ℕ} (β : K) (u : σ → K) (a : σ) (p : Fin k → σ) : K :=
  ∑ t : Fin k, β ^ (t : ℕ) * u (visits a p t.castSucc)

/-- The expected discounted sum of utilities over `k` dates, from the state `a`: the sum over all paths. -/
def expectedUtility (Q : σ → σ → K) (β : K) (u : σ → K) (k : ℕ) (a : σ) : K :=
  ∑ p : Fin k → σ, pathProb Q a p * pathUtility β u a p

/-- The expectation of `v` at date `k`, from the state `a`. -/
def expectedAt (Q : σ → σ → K) (v : σ → K) (k : ℕ) (a : σ) : K :=
  ∑ p : Fin k → σ, pathProb Q a p * v (visits a p (Fin.last k))

/-! ### Sums over paths -/

private theorem sum_paths {k : ℕ} (f : (Fin (k + 1) → σ) → K) :
    ∑ p, f p = ∑ b : σ, ∑ p : Fin k → σ, f (Fin.cons b p) := by
  rw [← Fintype.sum_prod_type' (f := fun b p => f (Fin.cons b p))]
  exact (Fintype.sum_equiv (Fin.consEquiv fun _ => σ) _ _ fun _ => rfl).symm

private theorem prob_cons {k : ℕ} (Q : σ → σ → K) (a b : σ) (p : Fin k → σ) :
    pathProb Q a (Fin.cons b p : Fin (k + 1) → σ) = Q a b * pathProb Q b p := by
  unfold pathProb
  rw [Fin.prod_univ_succ]
  rfl

private theorem utility_cons {k : ℕ} (β : K) (u : σ → K) (a b : σ) (p : Fin k → σ) :
    pathUtility β u a (Fin.cons b p : Fin (k + 1) → σ) = u a + β * pathUtility β u b p := by
  unfold pathUtility
  rw [Fin.sum_univ_succ, mul_sum]
  congr 1
  · simp [visits]
  · refine sum_congr rfl fun t _ => ?_
    rw [Fin.val_succ, pow_succ]
    change β ^ (t : ℕ) * β * u (visits b p t.castSucc) = _
    ring

private theorem prob_sum (Q : σ → σ → K) (hQ : ∀ a, ∑ b, Q a b = 1) (k : ℕ) (a : σ) :
    ∑ p : Fin k → σ, pathProb Q a p = 1 := by
  induction k generalizing a with
  | zero => simp [pathProb]
  | succ k ih =>
    rw [sum_paths]
    simp only [prob_cons, ← mul_sum, ih, mul_one, hQ]

private theorem expectedUtility_succ (Q : σ → σ → K) (hQ : ∀ a, ∑ b, Q a b = 1) (β : K) (u : σ → K) (k : ℕ) (a : σ) :
    expectedUtility Q β u (k + 1) a = u a + β * ∑ b, Q a b * expectedUtility Q β u k b := by
  unfold expectedUtility
  rw [sum_paths]
  have h : ∀ b, ∑ p : Fin k → σ, pathProb Q a (Fin.cons b p : Fin (k + 1) → σ)
      * pathUtility β u a (Fin.cons b p : Fin (k + 1) → σ)
      = Q a b * u a + β * (Q a b * ∑ p : Fin k → σ, pathProb Q b p * pathUtility β u b p) := by
    intro b
    simp only [prob_cons, utility_cons]
    have : ∀ p : Fin k → σ, Q a b * pathProb Q b p * (u a + β * pathUtility β u b p)
        = Q a b * u a * pathProb Q b p + β * Q a b * (pathProb Q b p * pathUtility β u b p) := fun p => by ring
    simp only [this, sum_add_distrib, ← mul_sum, prob_sum Q hQ]
    ring
  simp only [h, sum_add_distrib, ← mul_sum, ← sum_mul, hQ, one_mul]

private theorem expectedAt_succ (Q : σ → σ → K) (v : σ → K) (k : ℕ) (a : σ) :
    expectedAt Q v (k + 1) a = ∑ b, Q a b * expectedAt Q v k b := by
  unfold expectedAt
  rw [sum_paths]
  refine sum_congr rfl fun b _ => ?_
  rw [mul_sum]
  refine sum_congr rfl fun p _ => ?_
  rw [prob_cons, mul_assoc]
  rfl

variable [LinearOrder K] [IsStrictOrderedRing K]

private theorem expectedAt_bound (Q : σ → σ → K) (κ : K) (hQ : ∀ a, ∑ b, |Q a b| ≤ κ) (v : σ → K) (C : K)
    (hv : ∀ a, |v a| ≤ C) (k : ℕ) (a : σ) : |expectedAt Q v k a| ≤ κ ^ k * C := by
  have hC : 0 ≤ C := le_trans (abs_nonneg _) (hv a)
  have hκ : 0 ≤ κ := le_trans (sum_nonneg fun _ _ => abs_nonneg _) (hQ a)
  induction k generalizing a with
  | zero => simpa [expectedAt, pathProb, visits] using hv a
  | succ k ih =>
    rw [expectedAt_succ]
    refine le_trans (abs_sum_le_sum_abs _ _) ?_
    calc ∑ b, |Q a b * expectedAt Q v k b| ≤ ∑ b, |Q a b| * (κ ^ k * C) := sum_le_sum fun b _ => by
          rw [abs_mul]
          exact mul_le_mul_of_nonneg_left (ih b) (abs_nonneg _)
      _ ≤ κ ^ (k + 1) * C := by
          rw [← sum_mul, pow_succ', mul_assoc]
          exact mul_le_mul_of_nonneg_right (hQ a) (mul_nonneg (pow_nonneg hκ k) hC)

/-! ### The policy -/

/-- What is assumed of the model, the process and the interpolation of values for component `c` of the values: the
value equation is `V = utility + beta * V(1)`, and the value interpolated at a state reached from grid point `n` at
exogenous node `i` is the weighted sum of the values at the grid points with weights `w i n j`, whose sum is one.  For
linear interpolation they are not negative and `kappa` is one; for splines some are negative and `kappa` is larger. -/
structure DiscountedValue (nm N c : ℕ) (val : (m s x v M S X V : ℕ → K) → ℕ → K) (g : (m s x M : ℕ → K) → ℕ → K)
    (s : ℕ → ℕ → K) (x : Table K) (dr : ℕ → ℕ → (ℕ → K) → ℕ → K) (evalIJS : Table K → ℕ → ℕ → (ℕ → K) → ℕ → K)
    (dp : DProc K) (beta kappa : K) (utility : (m s x M S X : ℕ → K) → K) (w : ℕ → ℕ → ℕ → Fin nm × Fin N → K) : Prop where
  beta_nonneg : 0 ≤ beta
  kappa_nonneg : 0 ≤ kappa
  contraction : beta * kappa < 1
  weights : ∀ i < nm, ∀ j < dp.nInodes 0, 0 ≤ dp.iweight i j
  weights_sum : ∀ i < nm, ∑ j ∈ range (dp.nInodes 0), dp.iweight i j = 1
  value : ∀ m s x v M S X V, val m s x v M S X V c = utility m s x M S X + beta * V c
  average : ∀ i < nm, ∀ n < N, ∀ j < dp.nInodes 0, ∑ a, |w i n j a| ≤ kappa ∧ ∑ a, w i n j a = 1 ∧
    ∀ v, evalIJS v i j (g (dp.node i) (s n) (x i n) (dp.inode i j)) c = ∑ a, w i n j a * v a.1 a.2 c

/-- The probability to go from one grid point to another: the shock `j` is drawn, then one of the grid points around the
state reached, with the weights of the interpolation. -/
def gridMove {nm N : ℕ} (dp : DProc K) (w : ℕ → ℕ → ℕ → Fin nm × Fin N → K) (a b : Fin nm × Fin N) : K :=
  ∑ j ∈ range (dp.nInodes 0), dp.iweight a.1 j * w a.1 a.2 j b

/-- The expected utility of one date. -/
def gridUtility {nm N : ℕ} (g : (m s x M : ℕ → K) → ℕ → K) (s : ℕ → ℕ → K) (x : Table K)
    (dr : ℕ → ℕ → (ℕ → K) → ℕ → K) (dp : DProc K) (utility : (m s x M S X : ℕ → K) → K) (a : Fin nm × Fin N) : K :=
  ∑ j ∈ range (dp.nInodes 0),
    let S := g (dp.node a.1) (s a.2) (x a.1 a.2) (dp.inode a.1 j)
    dp.iweight a.1 j * utility (dp.node a.1) (s a.2) (x a.1 a.2) (dp.inode a.1 j) S (dr a.1 j S)

variable {nm N c : ℕ} {val : (m s x v M S X V : ℕ → K) → ℕ → K} {g : (m s x M : ℕ → K) → ℕ → K} {s : ℕ → ℕ → K}
  {x : Table K} {dr : ℕ → ℕ → (ℕ → K) → ℕ → K} {evalIJS : Table K → ℕ → ℕ → (ℕ → K) → ℕ → K} {dp : DProc K} {beta kappa : K}
  {utility : (m s x M S X : ℕ → K) → K} {w : ℕ → ℕ → ℕ → Fin nm × Fin N → K}

private theorem gridMove_abs (h : DiscountedValue nm N c val g s x dr evalIJS dp beta kappa utility w) (a : Fin nm × Fin N) :
    ∑ b, |gridMove dp w a b| ≤ kappa := by
  unfold gridMove
  calc ∑ b, |∑ j ∈ range (dp.nInodes 0), dp.iweight a.1 j * w a.1 a.2 j b|
      ≤ ∑ b, ∑ j ∈ range (dp.nInodes 0), dp.iweight a.1 j * |w a.1 a.2 j b| := sum_le_sum fun b _ =>
        le_trans (abs_sum_le_sum_abs _ _) (sum_le_sum fun j hj => by
          rw [abs_mul, abs_of_nonneg (h.weights _ a.1.2 j (mem_range.1 hj))])
    _ = ∑ j ∈ range (dp.nInodes 0), dp.iweight a.1 j * ∑ b, |w a.1 a.2 j b| := by
        rw [sum_comm]
        simp only [mul_sum]
    _ ≤ ∑ j ∈ range (dp.nInodes 0), dp.iweight a.1 j * kappa := sum_le_sum fun j hj =>
        mul_le_mul_of_nonneg_left (h.average _ a.1.2 _ a.2.2 j (mem_range.1 hj)).1 (h.weights _ a.1.2 j (mem_range.1 hj))
    _ = kappa := by rw [← sum_mul, h.weights_sum _ a.1.2, one_mul]

theorem gridMove_sum (h : DiscountedValue nm N c val g s x dr evalIJS dp beta kappa utility w) (a : Fin nm × Fin N) :
    ∑ b, gridMove dp w a b = 1 := by
  unfold gridMove
  rw [sum_comm, ← h.weights_sum a.1 a.1.2]
  refine sum_congr rfl fun j hj => ?_
  rw [← mul_sum, (h.average _ a.1.2 _ a.2.2 j (mem_range.1 hj)).2.1, mul_one]

theorem updateValue_gridMove (h : DiscountedValue nm N c val g s x dr evalIJS dp beta kappa utility w) (v : Table K)
    (a : Fin nm × Fin N) : updateValue val g s x v dr (evalIJS v) dp a.1 a.2 c
      = gridUtility g s x dr dp utility a + beta * ∑ b, gridMove dp w a b * v b.1 b.2 c := by
  have hf : ∀ (l : List ℕ) (f : ℕ → K) (z : K), l.foldl (fun r j => r + f j) z = z + (l.map f).sum := by
    intro l f
    induction l with
    | nil => simp
    | cons a l ih => intro z; simp [ih, add_assoc]
  unfold updateValue gridUtility gridMove
  rw [hf, zero_add, ← List.sum_toFinset _ List.nodup_range, List.toFinset_range, mul_sum]
  have : ∀ b, beta * ((∑ j ∈ range (dp.nInodes 0), dp.iweight a.1 j * w a.1 a.2 j b) * v b.1 b.2 c)
      = ∑ j ∈ range (dp.nInodes 0), beta * (dp.iweight a.1 j * (w a.1 a.2 j b * v b.1 b.2 c)) := by
    intro b
    rw [sum_mul, mul_sum]
    exact sum_congr rfl fun j _ => by ring
  simp only [this]
  rw [sum_comm, ← sum_add_distrib]
  refine sum_congr rfl fun j hj => ?_
  rw [h.value, (h.average _ a.1.2 _ a.2.2 j (mem_range.1 hj)).2.2 v, mul_add, mul_sum, mul_sum]
  congr 1
  exact sum_congr rfl fun b _ => by ring

/-- **C145, finite horizons.**  After `k` updates the value at a grid point is the expected discounted sum of the
utilities of `k` dates, plus the discounted expectation of the initial values at date `k`. -/
theorem C145_finite (h : DiscountedValue nm N c val g s x dr evalIJS dp beta kappa utility w) (v0 : Table K) (k : ℕ)
    (a : Fin nm × Fin N) :
    (fun v => updateValue val g s x v dr (evalIJS v) dp)^[k] v0 a.1 a.2 c
      = expectedUtility (gridMove dp w) beta (gridUtility g s x dr dp utility) k a
        + beta ^ k * expectedAt (gridMove dp w) (fun b => v0 b.1 b.2 c) k a := by
  induction k generalizing a with
  | zero => simp [expectedUtility, expectedAt, pathProb, pathUtility, visits]
  | succ k ih =>
    rw [Function.iterate_succ_apply', updateValue_gridMove h, expectedUtility_succ _ (gridMove_sum h), expectedAt_succ]
    simp only [ih, mul_add, sum_add_distrib, mul_sum]
    rw [add_assoc]
    congr 2
    exact sum_congr rfl fun b _ => by ring

/-- The update moves the values by a discounted average of the difference. -/
private theorem update_sub (h : DiscountedValue nm N c val g s x dr evalIJS dp beta kappa utility w) (v v' : Table K) (C : K)
    (hC : ∀ b : Fin nm × Fin N, |v b.1 b.2 c - v' b.1 b.2 c| ≤ C) (a : Fin nm × Fin N) :
    |updateValue val g s x v dr (evalIJS v) dp a.1 a.2 c - updateValue val g s x v' dr (evalIJS v') dp a.1 a.2 c|
      ≤ beta * kappa * C := by
  have hC0 : 0 ≤ C := le_trans (abs_nonneg _) (hC a)
  rw [updateValue_gridMove h, updateValue_gridMove h, add_sub_add_left_eq_sub, ← mul_sub, ← sum_sub_distrib, abs_mul, abs_of_nonneg h.beta_nonneg,
    mul_assoc]
  refine mul_le_mul_of_nonneg_left ?_ h.beta_nonneg
  refine le_trans (abs_sum_le_sum_abs _ _) ?_
  calc ∑ b, |gridMove dp w a b * v b.1 b.2 c - gridMove dp w a b * v' b.1 b.2 c| ≤ ∑ b, |gridMove dp w a b| * C :=
        sum_le_sum fun b _ => by
          rw [← mul_sub, abs_mul]
          exact mul_le_mul_of_nonneg_left (hC b) (abs_nonneg _)
    _ ≤ kappa * C := by
        rw [← sum_mul]
        exact mul_le_mul_of_nonneg_right (gridMove_abs h a) hC0

private theorem value_near (h : DiscountedValue nm N c val g s x dr evalIJS dp beta kappa utility w) (v : Table K) (e C : K)
    (he : ∀ a : Fin nm × Fin N, |updateValue val g s x v dr (evalIJS v) dp a.1 a.2 c - v a.1 a.2 c| ≤ e)
    (hC : ∀ a : Fin nm × Fin N, |v a.1 a.2 c| ≤ C) (k : ℕ) (a : Fin nm × Fin N) :
    |v a.1 a.2 c - expectedUtility (gridMove dp w) beta (gridUtility g s x dr dp utility) k a|
      ≤ e / (1 - beta * kappa) + (beta * kappa) ^ k * C := by
  have hb : 0 < 1 - beta * kappa := by linarith [h.contraction]
  have he0 : 0 ≤ e := le_trans (abs_nonneg _) (he a)
  have hd : ∀ (k : ℕ) (a : Fin nm × Fin N),
      |(fun v => updateValue val g s x v dr (evalIJS v) dp)^[k] v a.1 a.2 c - v a.1 a.2 c| ≤ e / (1 - beta * kappa) := by
    intro k
    induction k with
    | zero => intro a; simpa using div_nonneg he0 hb.le
    | succ k ih =>
      intro a
      rw [Function.iterate_succ_apply']
      have h1 := update_sub h _ v _ ih a
      have h2 := he a
      have h3 : e / (1 - beta * kappa) = beta * kappa * (e / (1 - beta * kappa)) + e := by field_simp; ring
      rw [h3]
      refine le_trans ?_ (add_le_add h1 h2)
      refine le_trans (le_of_eq ?_) (abs_add_le _ _)
      congr 1
      ring
  have h1 := hd k a
  rw [C145_finite h] at h1
  have h2 := expectedAt_bound _ kappa (gridMove_abs h) (fun b => v b.1 b.2 c) C hC k a
  have h3 : |beta ^ k * expectedAt (gridMove dp w) (fun b => v b.1 b.2 c) k a| ≤ (beta * kappa) ^ k * C := by
    rw [abs_mul, abs_of_nonneg (pow_nonneg h.beta_nonneg k), mul_pow, mul_assoc]
    exact mul_le_mul_of_nonneg_left h2 (pow_nonneg h.beta_nonneg k)
  rw [abs_le] at h1 h3 ⊢
  constructor <;> linarith [h1.1, h1.2, h3.1, h3.2]

/-- **C145.**  For the values returned by `evaluate_policy`, at every grid point and for every horizon `k`: the value is
within `error / (1 - beta * kappa)`, plus `(beta * kappa) ^ k` times the largest value, of the expected discounted sum of the utilities of
`k` dates.  If the loop stopped before `maxit`, `error` is at most `tol`. -/
theorem C145_value (h : DiscountedValue nm N c val g s x dr evalIJS dp beta kappa utility w) (nv : ℕ) (hc : c < nv)
    (tol : K) (htol : tol < 10) (maxit : ℕ) (hmax : 1 ≤ maxit) (v0 : Table K) (dr0 : Option (Table K)) :
    let r := evaluatePolicy (fun v => updateValue val g s x v dr (evalIJS v) dp)
      (fun a b => tableMax nm N nv fun i n k => a i n k - b i n k) tol maxit v0 dr0
    (r.iterations < maxit → r.error ≤ tol) ∧ ∃ v, r.solution = some v ∧
      ∀ C, (∀ a : Fin nm × Fin N, |v a.1 a.2 c| ≤ C) → ∀ (k : ℕ) (a : Fin nm × Fin N),
        |v a.1 a.2 c - expectedUtility (gridMove dp w) beta (gridUtility g s x dr dp utility) k a|
          ≤ r.error / (1 - beta * kappa) + (beta * kappa) ^ k * C := by
  intro r
  obtain ⟨-, -, h1, v, h2, -, h3⟩ := C32_evaluate_policy (fun v => updateValue val g s x v dr (evalIJS v) dp)
    (fun a b => tableMax nm N nv fun i n k => a i n k - b i n k) tol htol maxit hmax v0 dr0
  refine ⟨h1, v, h2, fun C hC k a => value_near h v _ C (fun a => ?_) hC k a⟩
  have h4 := (tableMax_le_iff nm N nv (fun i n k => updateValue val g s x v dr (evalIJS v) dp i n k - v i n k) _
    (tableMax_nonneg _ _ _ _)).1 le_rfl a.1 a.1.2 a.2 a.2.2 c hc
  exact le_trans h4 (le_of_eq h3.symm)

private theorem expectedUtility_next (Q : σ → σ → K) (hQ : ∀ a, ∑ b, Q a b = 1) (β : K) (u : σ → K) (k : ℕ) (a : σ) :
    expectedUtility Q β u (k + 1) a = expectedUtility Q β u k a + β ^ k * expectedAt Q u k a := by
  induction k generalizing a with
  | zero =>
    rw [expectedUtility_succ Q hQ]
    simp [expectedUtility, expectedAt, pathProb, pathUtility, visits]
  | succ k ih =>
    rw [expectedUtility_succ Q hQ, expectedAt_succ, expectedUtility_succ Q hQ β u k a]
    simp only [ih, mul_add, sum_add_distrib, mul_sum]
    rw [add_assoc]
    congr 2
    exact sum_congr rfl fun b _ => by ring

open Filter Topology in
/-- **C145, infinite horizon.**  The expected discounted sums of utilities have a limit as the horizon grows, and the
values returned by `evaluate_policy` are within `error / (1 - beta * kappa)` of it. -/
theorem C145_infinite {val : (m s x v M S X V : ℕ → ℝ) → ℕ → ℝ} {g : (m s x M : ℕ → ℝ) → ℕ → ℝ} {s : ℕ → ℕ → ℝ}
    {x : Table ℝ} {dr : ℕ → ℕ → (ℕ → ℝ) → ℕ → ℝ} {evalIJS : Table ℝ → ℕ → ℕ → (ℕ → ℝ) → ℕ → ℝ} {dp : DProc ℝ} {beta kappa : ℝ}
    {utility : (m s x M S X : ℕ → ℝ) → ℝ} {w : ℕ → ℕ → ℕ → Fin nm × Fin N → ℝ}
    (h : DiscountedValue nm N c val g s x dr evalIJS dp beta kappa utility w) (nv : ℕ) (hc : c < nv)
    (tol : ℝ) (htol : tol < 10) (maxit : ℕ) (hmax : 1 ≤ maxit) (v0 : Table ℝ) (dr0 : Option (Table ℝ)) :
    let r := evaluatePolicy (fun v => updateValue val g s x v dr (evalIJS v) dp)
      (fun a b => tableMax nm N nv fun i n k => a i n k - b i n k) tol maxit v0 dr0
    ∃ v, r.solution = some v ∧ ∀ a : Fin nm × Fin N, ∃ W,
      Tendsto (fun k => expectedUtility (gridMove dp w) beta (gridUtility g s x dr dp utility) k a) atTop (𝓝 W) ∧
      |v a.1 a.2 c - W| ≤ r.error / (1 - beta * kappa) ∧ (r.iterations < maxit → |v a.1 a.2 c - W| ≤ tol / (1 - beta * kappa)) := by
  intro r
  obtain ⟨h1, v, h2, h3⟩ := C145_value h nv hc tol htol maxit hmax v0 dr0
  refine ⟨v, h2, fun a => ?_⟩
  have hb : 0 < 1 - beta * kappa := by linarith [h.contraction]
  obtain ⟨U, hU⟩ : ∃ U, ∀ b : Fin nm × Fin N, |gridUtility g s x dr dp utility b| ≤ U :=
    ⟨∑ b, |gridUtility g s x dr dp utility b|, fun b => single_le_sum (f := fun b => |gridUtility g s x dr dp utility b|)
      (fun b _ => abs_nonneg _) (mem_univ b)⟩
  obtain ⟨C, hC⟩ : ∃ C, ∀ b : Fin nm × Fin N, |v b.1 b.2 c| ≤ C :=
    ⟨∑ b : Fin nm × Fin N, |v b.1 b.2 c|, fun b => single_le_sum (f := fun b : Fin nm × Fin N => |v b.1 b.2 c|)
      (fun b _ => abs_nonneg _) (mem_univ b)⟩
  have hcau : CauchySeq fun k => expectedUtility (gridMove dp w) beta (gridUtility g s x dr dp utility) k a := by
    refine cauchySeq_of_le_geometric (beta * kappa) U h.contraction fun k => ?_
    rw [expectedUtility_next _ (gridMove_sum h), dist_comm, Real.dist_eq, add_sub_cancel_left, abs_mul,
      abs_of_nonneg (pow_nonneg h.beta_nonneg k), mul_comm U, mul_pow, mul_assoc]
    exact mul_le_mul_of_nonneg_left (expectedAt_bound _ kappa (gridMove_abs h) _ U hU k a) (pow_nonneg h.beta_nonneg k)
  obtain ⟨W, hW⟩ := cauchySeq_tendsto_of_complete hcau
  have hle : |v a.1 a.2 c - W| ≤ r.error / (1 - beta * kappa) := by
    refine le_of_tendsto_of_tendsto ((tendsto_const_nhds.sub hW).abs) (?_ : Tendsto (fun k : ℕ => r.error / (1 - beta * kappa)
      + (beta * kappa) ^ k * C) atTop (𝓝 (r.error / (1 - beta * kappa)))) (Eventually.of_forall fun k => h3 C hC k a)
    simpa using ((tendsto_pow_atTop_nhds_zero_of_lt_one (mul_nonneg h.beta_nonneg h.kappa_nonneg) h.contraction).mul_const C).const_add
      (r.error / (1 - beta * kappa))
  exact ⟨W, hW, hle, fun hi => le_trans hle (div_le_div_of_nonneg_right (h1 hi) hb.le)⟩

/-! ### A case -/

/-- Two states `0` and `1`; the shock, `0` or `1` with equal probabilities, is the next state; utility is the state. -/
private def coinProc : DProc ℚ where
  nNodes := 1
  nInodes := fun _ => 2
  node := fun _ _ => 0
  inode := fun _ j _ => j
  iweight := fun _ _ => 1 / 2

private theorem coin_value : DiscountedValue 1 2 0 (fun _ s _ _ _ _ _ V _ => s 0 + 1 / 2 * V 0) (fun _ _ _ M => M)
    (fun n _ => (n : ℚ)) (fun _ _ _ => 0) (fun _ _ _ _ => 0) (fun v _ _ S k => (1 - S 0) * v 0 0 k + S 0 * v 0 1 k) coinProc
    (1 / 2) 1 (fun _ s _ _ _ _ => s 0) (fun _ _ j a => if a.2.val = j then 1 else 0) where
  beta_nonneg := by norm_num
  kappa_nonneg := by norm_num
  contraction := by norm_num
  weights := fun _ _ _ _ => by norm_num [coinProc]
  weights_sum := fun _ _ => by norm_num [coinProc]
  value := fun _ _ _ _ _ _ _ _ => rfl
  average := by
    intro i _ n _ j hj
    have hj' : j = 0 ∨ j = 1 := by
      change j < 2 at hj
      omega
    rcases hj' with rfl | rfl <;> simp [Fintype.sum_prod_type, Fin.sum_univ_two, coinProc] <;> rfl

/-- The hypotheses of C145 can be met.  From the state `1` the expected discounted utility of two dates is
`1 + 1 / 2 * 1 / 2`, and so is, from zero, the value after two updates. -/
example : (fun v => updateValue (fun _ s _ _ _ _ _ V _ => s 0 + 1 / 2 * V 0) (fun _ _ _ M => M)
    (fun n _ => (n : ℚ)) (fun _ _ _ => 0) v (fun _ _ _ _ => 0) ((fun (v : Table ℚ) _ _ S k => (1 - S 0) * v 0 0 k + S 0 * v 0 1 k) v)
    coinProc)^[2] (fun _ _ _ => 0) 0 1 0 = 5 / 4 ∧
    expectedUtility (gridMove coinProc fun _ _ j a => if a.2.val = j then 1 else 0) (1 / 2)
      (gridUtility (nm := 1) (N := 2) (fun _ _ _ M => M) (fun n _ => (n : ℚ)) (fun _ _ _ => 0) (fun _ _ _ _ => 0) coinProc
        (fun _ s _ _ _ _ => s 0)) 2 (0, 1) = 5 / 4 := by
  have h := C145_finite coin_value (fun _ _ _ => 0) 2 (0, 1)
  have h2 : (fun v => updateValue (fun _ s _ _ _ _ _ V _ => s 0 + 1 / 2 * V 0) (fun _ _ _ M => M)
    (fun n _ => (n : ℚ)) (fun _ _ _ => 0) v (fun _ _ _ _ => 0) ((fun (v : Table ℚ) _ _ S k => (1 - S 0) * v 0 0 k + S 0 * v 0 1 k) v)
    coinProc)^[2] (fun _ _ _ => 0) 0 1 0 = 5 / 4 := by
    decide +kernel
  refine ⟨h2, ?_⟩
  have h3 : expectedAt (gridMove coinProc fun _ _ j (a : Fin 1 × Fin 2) => if a.2.val = j then (1 : ℚ) else 0) (fun _ => 0) 2 (0, 1) = 0 := by
    simp [expectedAt]
  rw [h3, mul_zero, add_zero] at h
  exact h.symm.trans h2

end Dolo
