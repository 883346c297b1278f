import Mathlib.Tactic.IntervalCases
import Verif.Model.Newton
import Verif.Props.Complementarity
import Verif.Props.Gauss

/-!
# C27, C73, C74: Newton iterations
-/

set_option linter.unusedSectionVars false

namespace Dolo

section

variable {K X V J D : Type} [Field K] [LinearOrder K] [IsStrictOrderedRing K]

/-! ### Specification -/

/-- One safeguarded Newton step from `x` to `x'`: `x'` is `x - 2^(-b) dx`, where `dx` is the Newton step, and
`b` is the first of `0..29` which makes the residual smaller, or `29` if there is none. -/
def NewtonStep (f : X → V × J) (norm : V → K) (solve : J → V → D) (sub : X → D → K → X) (x x' : X) : Prop :=
  ∃ b ≤ 29, x' = sub x (solve (f x).2 (f x).1) (1 / 2 ^ b) ∧
    (∀ c < b, ¬ norm (f (sub x (solve (f x).2 (f x).1) (1 / 2 ^ c))).1 < norm (f x).1) ∧
    (norm (f x').1 < norm (f x).1 ∨ b = 29)

/-! ### C27 -/

private theorem backSteps_spec (better : ℕ → Bool) (k bck : ℕ) :
    bck ≤ backSteps better k bck ∧ backSteps better k bck ≤ bck + k ∧
    (∀ c, bck ≤ c → c < backSteps better k bck → better c = false) ∧
    (better (backSteps better k bck) = true ∨ backSteps better k bck = bck + k) := by
  induction k generalizing bck with
  | zero => exact ⟨le_refl _, le_refl _, fun c h1 h2 => by simp [backSteps] at h2; omega, .inr rfl⟩
  | succ k ih =>
    unfold backSteps
    split_ifs with h
    · exact ⟨le_refl _, by omega, fun c h1 h2 => by omega, .inl h⟩
    · obtain ⟨h1, h2, h3, h4⟩ := ih (bck + 1)
      refine ⟨by omega, by omega, ?_, ?_⟩
      · intro c hc1 hc2
        rcases Nat.eq_or_lt_of_le hc1 with rfl | hlt
        · simpa using h
        · exact h3 c hlt hc2
      · rcases h4 with h4 | h4
        · exact .inl h4
        · right; omega

theorem newton_next_step (P : NewtonProblem K X V J D) (x : X) :
    NewtonStep P.f P.norm P.solve P.sub x (P.next x) := by
  obtain ⟨h1, h2, h3, h4⟩ := backSteps_spec
    (fun b => decide (P.norm (P.f (P.trial x (P.solve (P.f x).2 (P.f x).1) b)).1 < P.norm (P.f x).1)) 29 0
  refine ⟨_, by omega, rfl, ?_, ?_⟩
  · intro c hc
    have := h3 c (by omega) hc
    simpa [NewtonProblem.trial] using this
  · rcases h4 with h4 | h4
    · left; simpa [NewtonProblem.next] using h4
    · right; omega

private theorem loop_spec (P : NewtonProblem K X V J D) (tol : K) (k it : ℕ) (x : X) :
    let r := newtonLoop P tol k it x
    ∃ path : ℕ → X, path 0 = x ∧ path (r.it - it) = r.x ∧ it ≤ r.it ∧ r.it ≤ it + k ∧
      (∀ t < r.it - it, tol ≤ P.norm (P.f (path t)).1 ∧
        NewtonStep P.f P.norm P.solve P.sub (path t) (path (t + 1))) ∧
      (r.warned = false → P.norm (P.f r.x).1 < tol ∧ r.it < it + k) ∧
      (r.warned = true → r.it = it + k) := by
  induction k generalizing it x with
  | zero =>
    refine ⟨fun _ => x, rfl, rfl, ?_, ?_, ?_, ?_, ?_⟩ <;> simp [newtonLoop]
  | succ k ih =>
    by_cases h : P.norm (P.f x).1 < tol
    · have e : newtonLoop P tol (k + 1) it x = ⟨x, it, false⟩ := by simp [newtonLoop, h]
      rw [e]
      refine ⟨fun _ => x, rfl, rfl, le_refl _, by simp, ?_, ?_, ?_⟩
      · intro t ht; simp at ht
      · intro _; exact ⟨h, by simp⟩
      · intro hc; simp at hc
    · have e : newtonLoop P tol (k + 1) it x = newtonLoop P tol k (it + 1) (P.next x) := by
        simp [newtonLoop, h]
      rw [e]
      obtain ⟨path, p0, p1, p2, p3, p4, p5, p6⟩ := ih (it + 1) (P.next x)
      set r := newtonLoop P tol k (it + 1) (P.next x) with hr
      refine ⟨fun t => match t with | 0 => x | t + 1 => path t, rfl, ?_, by omega, by omega, ?_, ?_, ?_⟩
      · have : r.it - it = (r.it - (it + 1)) + 1 := by omega
        rw [this]
        exact p1
      · intro t ht
        cases t with
        | zero =>
          refine ⟨not_lt.1 h, ?_⟩
          simp only []
          rw [p0]
          exact newton_next_step P x
        | succ t => exact p4 t (by omega)
      · intro hw
        have := p5 hw
        exact ⟨this.1, by omega⟩
      · intro hw
        have := p6 hw
        omega

/-- **C27.**  For every function, norm, linear solver, tolerance and budget: the points visited are linked by
safeguarded Newton steps, all those left behind have a residual of at least `tol`; `it` counts the steps and
does not exceed `maxit`; no warning means that the residual at the point returned is below `tol`, a warning
that the budget was used up. -/
theorem C27_newton (P : NewtonProblem K X V J D) (tol : K) (maxit : ℕ) (x : X) :
    ∃ path : ℕ → X, path 0 = x ∧ path (newton P tol maxit x).it = (newton P tol maxit x).x ∧
      (newton P tol maxit x).it ≤ maxit ∧
      (∀ t < (newton P tol maxit x).it, tol ≤ P.norm (P.f (path t)).1 ∧
        NewtonStep P.f P.norm P.solve P.sub (path t) (path (t + 1))) ∧
      ((newton P tol maxit x).warned = false → P.norm (P.f (newton P tol maxit x).x).1 < tol) ∧
      ((newton P tol maxit x).warned = true → (newton P tol maxit x).it = maxit) := by
  obtain ⟨path, p0, p1, p2, p3, p4, p5, p6⟩ := loop_spec P tol maxit 0 x
  simp only [Nat.sub_zero, Nat.zero_add] at p1 p2 p3 p4 p5 p6
  exact ⟨path, p0, p1, p3, p4, fun h => (p5 h).1, p6⟩

/-- **C27, descent.**  If from every point some of the thirty trial steps decreases the residual, the residual
decreases strictly from iterate to iterate; in particular `newton` never returns a worse point than the
initial one. -/
theorem C27_descent (P : NewtonProblem K X V J D) (tol : K) (maxit : ℕ) (x : X)
    (hdec : ∀ y, tol ≤ P.norm (P.f y).1 → ∃ b ≤ 29,
      P.norm (P.f (P.sub y (P.solve (P.f y).2 (P.f y).1) (1 / 2 ^ b))).1 < P.norm (P.f y).1) :
    ∃ path : ℕ → X, path 0 = x ∧ path (newton P tol maxit x).it = (newton P tol maxit x).x ∧
      (∀ t < (newton P tol maxit x).it, P.norm (P.f (path (t + 1))).1 < P.norm (P.f (path t)).1) ∧
      P.norm (P.f (newton P tol maxit x).x).1 ≤ P.norm (P.f x).1 := by
  obtain ⟨path, p0, p1, p2, p3, -, -⟩ := C27_newton P tol maxit x
  have hstep : ∀ t < (newton P tol maxit x).it, P.norm (P.f (path (t + 1))).1 < P.norm (P.f (path t)).1 := by
    intro t ht
    obtain ⟨h1, b, hb, hx, hlow, h2⟩ := p3 t ht
    rcases h2 with h2 | h2
    · exact h2
    · obtain ⟨c, hc, hlt⟩ := hdec (path t) h1
      rcases Nat.lt_or_ge c b with h | h
      · exact absurd hlt (hlow c h)
      · have : c = b := by omega
        rw [hx, ← this]; exact hlt
  refine ⟨path, p0, p1, hstep, ?_⟩
  have : ∀ t ≤ (newton P tol maxit x).it, P.norm (P.f (path t)).1 ≤ P.norm (P.f x).1 := by
    intro t
    induction t with
    | zero => intro _; rw [p0]
    | succ t ih => intro ht; exact le_trans (le_of_lt (hstep t (by omega))) (ih (by omega))
  have h := this _ (le_refl _)
  rwa [p1] at h

/-- Without that hypothesis a step that increases the residual is taken: after thirty failed trials the last
one is accepted.  Here `f(x) = 1 + x²` at `0` with a Jacobian of `1`. -/
theorem C27_may_increase :
    ∃ (P : NewtonProblem ℚ ℚ ℚ ℚ ℚ) (tol : ℚ) (maxit : ℕ) (x : ℚ),
      P.norm (P.f x).1 < P.norm (P.f (newton P tol maxit x).x).1 := by
  refine ⟨⟨fun x => (1 + x ^ 2, 1), fun v => |v|, fun d v => v / d, fun x d t => x - d * t⟩, 1 / 10, 1, 0, ?_⟩
  norm_num [newton, newtonLoop, NewtonProblem.next, backSteps, NewtonProblem.trial, abs_of_pos]

/-- The warning may be given at an exact solution: the residual is not computed again once the budget is used
up. -/
theorem C27_warns_at_solution :
    ∃ (P : NewtonProblem ℚ ℚ ℚ ℚ ℚ) (tol : ℚ) (maxit : ℕ) (x : ℚ), 0 < tol ∧
      (newton P tol maxit x).warned = true ∧ P.norm (P.f (newton P tol maxit x).x).1 = 0 := by
  refine ⟨⟨fun x => (x, 1), fun v => |v|, fun d v => v / d, fun x d t => x - d * t⟩, 1 / 10, 1, 1, ?_⟩
  norm_num [newton, newtonLoop, NewtonProblem.next, backSteps, NewtonProblem.trial]

/-! ### C73: affine systems -/

private theorem foldl_max_le (l : List K) (a c : K) (ha : a ≤ c) (h : ∀ v ∈ l, v ≤ c) : l.foldl max a ≤ c := by
  induction l generalizing a with
  | nil => simpa
  | cons b l ih =>
    simp only [List.foldl_cons]
    exact ih _ (max_le ha (h b (by simp))) (fun v hv => h v (by simp [hv]))

private theorem le_foldl_max (l : List K) (a : K) : a ≤ l.foldl max a ∧ ∀ v ∈ l, v ≤ l.foldl max a := by
  induction l generalizing a with
  | nil => simp
  | cons b l ih =>
    simp only [List.foldl_cons]
    obtain ⟨h1, h2⟩ := ih (max a b)
    refine ⟨le_trans (le_max_left _ _) h1, ?_⟩
    intro v hv
    rcases List.mem_cons.1 hv with rfl | hv
    · exact le_trans (le_max_right _ _) h1
    · exact h2 v hv

/-- `maxAbs` is the sup norm. -/
theorem maxAbs_le_iff (N n : ℕ) (v : ℕ → ℕ → K) (c : K) (hc : 0 ≤ c) :
    maxAbs N n v ≤ c ↔ ∀ p < N, ∀ i < n, |v p i| ≤ c := by
  unfold maxAbs
  constructor
  · intro h p hp i hi
    refine le_trans ((le_foldl_max _ 0).2 _ ?_) h
    rw [List.mem_flatMap]
    exact ⟨p, List.mem_range.2 hp, List.mem_map.2 ⟨i, List.mem_range.2 hi, rfl⟩⟩
  · intro h
    refine foldl_max_le _ _ _ hc ?_
    intro w hw
    rw [List.mem_flatMap] at hw
    obtain ⟨p, hp, hw⟩ := hw
    obtain ⟨i, hi, rfl⟩ := List.mem_map.1 hw
    exact h p (List.mem_range.1 hp) i (List.mem_range.1 hi)

theorem maxAbs_nonneg (N n : ℕ) (v : ℕ → ℕ → K) : 0 ≤ maxAbs N n v := (le_foldl_max _ 0).1

private theorem serialStep_solves (N n : ℕ) (dv : ℕ → ℕ → ℕ → K) (v : ℕ → ℕ → K) (p : ℕ) (hp : p < N)
    (h : Nonsingular n (dv p)) : Solves n (dv p) (v p) (serialStep N n dv v p) := by
  obtain ⟨-, h2⟩ := C24_serial_solve n ((List.range N).map fun p => (dv p, v p))
  obtain ⟨w, hw, hs⟩ := h2 p (dv p) (v p) (by simp [hp]) h
  have : serialStep N n dv v p = w := by simp [serialStep, hw]
  rw [this]; exact hs

/-- **C73.**  On `N` affine systems `A_p x_p + c_p` with invertible matrices, `newton` with the serial storage
and at least two iterations never warns, and does at most one step; after one step every system is solved
exactly. -/
theorem C73_newton_affine (N n : ℕ) (A : ℕ → ℕ → ℕ → K) (c : ℕ → ℕ → K)
    (hA : ∀ p < N, Nonsingular n (A p)) (tol : K) (htol : 0 < tol) (maxit : ℕ) (hmax : 2 ≤ maxit)
    (x : ℕ → ℕ → K) :
    let r := newton (serialProblem N n fun x =>
      (fun p i => ∑ j ∈ Finset.range n, A p i j * x p j + c p i, fun p => A p)) tol maxit x
    r.warned = false ∧ r.it ≤ 1 ∧
    (r.it = 1 → ∀ p < N, ∀ i < n, ∑ j ∈ Finset.range n, A p i j * r.x p j + c p i = 0) ∧
    (r.it = 0 → r.x = x ∧
      ∀ p < N, ∀ i < n, |∑ j ∈ Finset.range n, A p i j * x p j + c p i| < tol) := by
  intro r
  set P := serialProblem N n fun x : ℕ → ℕ → K =>
      (fun p i => ∑ j ∈ Finset.range n, A p i j * x p j + c p i, fun p => A p) with hP
  obtain ⟨k, rfl⟩ : ∃ k, maxit = k + 2 := ⟨maxit - 2, by omega⟩
  by_cases h0 : P.norm (P.f x).1 < tol
  · have e : r = ⟨x, 0, false⟩ := by
      show newtonLoop P tol (k + 2) 0 x = _
      simp [newtonLoop, h0]
    rw [e]
    refine ⟨rfl, by norm_num, fun h => by simp at h, fun _ => ⟨rfl, ?_⟩⟩
    intro p hp i hi
    refine lt_of_le_of_lt ?_ h0
    exact (maxAbs_le_iff N n (P.f x).1 _ (maxAbs_nonneg _ _ _)).1 (le_refl _) p hp i hi
  · set dx := P.solve (P.f x).2 (P.f x).1 with hdx
    have hfull : ∀ p < N, ∀ i < n, (P.f (P.trial x dx 0)).1 p i = 0 := by
      intro p hp i hi
      have hs := serialStep_solves N n (fun p => A p) (P.f x).1 p hp (hA p hp) i hi
      show ∑ j ∈ Finset.range n, A p i j * (x p j - dx p j * (1 / 2 ^ 0)) + c p i = 0
      have e : ∑ j ∈ Finset.range n, A p i j * (x p j - dx p j * (1 / 2 ^ 0))
          = ∑ j ∈ Finset.range n, A p i j * x p j - ∑ j ∈ Finset.range n, A p i j * dx p j := by
        rw [← Finset.sum_sub_distrib]
        apply Finset.sum_congr rfl
        intro j _
        ring
      have hs' : ∑ j ∈ Finset.range n, A p i j * dx p j
          = ∑ j ∈ Finset.range n, A p i j * x p j + c p i := hs
      rw [e, hs']
      ring
    have hzero : P.norm (P.f (P.trial x dx 0)).1 = 0 := by
      apply le_antisymm _ (maxAbs_nonneg _ _ _)
      apply (maxAbs_le_iff N n _ 0 (le_refl _)).2
      intro p hp i hi
      rw [hfull p hp i hi, abs_zero]
    have hnext : P.next x = P.trial x dx 0 := by
      have hb : decide (P.norm (P.f (P.trial x dx 0)).1 < P.norm (P.f x).1) = true := by
        rw [decide_eq_true_iff, hzero]
        exact lt_of_lt_of_le htol (not_lt.1 h0)
      unfold NewtonProblem.next
      simp only [← hdx]
      have : backSteps (fun b => decide (P.norm (P.f (P.trial x dx b)).1 < P.norm (P.f x).1)) 29 0 = 0 := by
        unfold backSteps
        rw [if_pos hb]
      rw [this]
    have e : r = ⟨P.trial x dx 0, 1, false⟩ := by
      show newtonLoop P tol (k + 2) 0 x = _
      rw [newtonLoop, if_neg h0, hnext, newtonLoop, hzero, if_pos htol]
    rw [e]
    exact ⟨rfl, le_refl _, fun _ => hfull, fun h => by simp at h⟩

/-- Two points, one equation each: `2 x - 4` and `x + 1` from `0`. -/
example : (newton (serialProblem 2 1 fun x =>
    (fun p _ => ∑ j ∈ Finset.range 1, (if p = 0 then (2 : ℚ) else 1) * x p j + (if p = 0 then -4 else 1),
      fun p _ _ => if p = 0 then 2 else 1)) (1 / 100) 5 (fun _ _ => 0)).warned = false := by
  refine (C73_newton_affine 2 1 (fun p _ _ => if p = 0 then 2 else 1) (fun p _ => if p = 0 then -4 else 1)
    ?_ (1 / 100) (by norm_num) 5 (by norm_num) (fun _ _ => 0)).1
  intro p hp v hv j hj
  have := hv 0 (by norm_num)
  have hj0 : j = 0 := by omega
  subst hj0
  interval_cases p <;> norm_num at this <;> assumption

end

/-! ### C74: ncpsolve -/

/-- The natural residual of `f ⟂ lb ≤ x ≤ ub`: how far `x` is from a solution. -/
noncomputable def naturalResidual (lb ub : Option ℝ) (x f : ℝ) : ℝ :=
  let r := match lb with | none => f | some l => min f (x - l)
  match ub with | none => r | some u => max r (x - u)

/-- The natural residual is zero exactly at the solutions. -/
theorem naturalResidual_zero (lb ub : Option ℝ) (hb : BoundsOK lb ub) (x f : ℝ) :
    naturalResidual lb ub x f = 0 ↔ SolvesMCP lb ub x f := by
  cases lb with
  | none =>
    cases ub with
    | none =>
      simp only [naturalResidual, SolvesMCP]
      constructor
      · rintro rfl; simp
      · rintro ⟨-, -, h1, h2⟩
        rcases lt_trichotomy f 0 with h | h | h
        · simpa using h2 h
        · exact h
        · simpa using h1 h
    | some u =>
      simp only [naturalResidual, SolvesMCP]
      constructor
      · intro h
        have h1 : f ≤ 0 := by rw [← h]; exact le_max_left _ _
        have h2 : x - u ≤ 0 := by rw [← h]; exact le_max_right _ _
        refine ⟨by simp, ?_, fun h3 => absurd h1 (not_le.2 h3), fun h3 => ?_⟩
        · intro u' hu'; simp at hu'; subst hu'; linarith
        · rcases max_choice f (x - u) with h4 | h4 <;> rw [h4] at h
          · exact absurd h (ne_of_lt h3)
          · congr 1; linarith
      · rintro ⟨-, h1, h2, h3⟩
        have hx := h1 u (by simp)
        have hf : f ≤ 0 := by
          by_contra hc
          have := h2 (not_le.1 hc)
          simp at this
        rcases lt_or_eq_of_le hf with h | h
        · have := h3 h
          simp at this
          subst this
          rw [sub_self]; exact max_eq_right hf
        · subst h; exact max_eq_left (by linarith)
  | some l =>
    cases ub with
    | none =>
      simp only [naturalResidual, SolvesMCP]
      constructor
      · intro h
        have h1 : 0 ≤ f := by rw [← h]; exact min_le_left _ _
        have h2 : 0 ≤ x - l := by rw [← h]; exact min_le_right _ _
        refine ⟨?_, by simp, fun h3 => ?_, fun h3 => absurd h1 (not_le.2 h3)⟩
        · intro u' hu'; simp at hu'; subst hu'; linarith
        · rcases min_choice f (x - l) with h4 | h4 <;> rw [h4] at h
          · exact absurd h (ne_of_gt h3)
          · congr 1; linarith
      · rintro ⟨h1, -, h2, h3⟩
        have hx := h1 l (by simp)
        have hf : 0 ≤ f := by
          by_contra hc
          have := h3 (not_le.1 hc)
          simp at this
        rcases lt_or_eq_of_le hf with h | h
        · have := h2 h
          simp at this
          subst this
          rw [sub_self]; exact min_eq_right hf
        · rw [← h]; exact min_eq_left (by linarith)
    | some u =>
      have hlu : l ≤ u := hb l (by simp) u (by simp)
      simp only [naturalResidual, SolvesMCP]
      constructor
      · intro h
        have h1 : min f (x - l) ≤ 0 := by rw [← h]; exact le_max_left _ _
        have h2 : x - u ≤ 0 := by rw [← h]; exact le_max_right _ _
        have hxl : l ≤ x := by
          by_contra hc
          have hc := not_le.1 hc
          have h5 : min f (x - l) < 0 := lt_of_le_of_lt (min_le_right _ _) (by linarith)
          have h6 : max (min f (x - l)) (x - u) < 0 := max_lt h5 (by linarith)
          linarith
        refine ⟨?_, ?_, fun h3 => ?_, fun h3 => ?_⟩
        · intro u' hu'; simp at hu'; subst hu'; exact hxl
        · intro u' hu'; simp at hu'; subst hu'; linarith
        · rcases min_choice f (x - l) with h4 | h4 <;> rw [h4] at h1
          · linarith
          · congr 1; linarith
        · have h5 : min f (x - l) < 0 := lt_of_le_of_lt (min_le_left _ _) h3
          rcases max_choice (min f (x - l)) (x - u) with h4 | h4 <;> rw [h4] at h
          · linarith
          · congr 1; linarith
      · rintro ⟨h0, h1, h2, h3⟩
        have hx := h1 u (by simp)
        have hx' := h0 l (by simp)
        rcases lt_trichotomy f 0 with h | h | h
        · have := h3 h
          simp at this
          subst this
          rw [sub_self]
          exact max_eq_right (le_trans (min_le_left _ _) h.le)
        · subst h
          rw [min_eq_left (by linarith)]
          exact max_eq_left (by linarith)
        · have := h2 h
          simp at this
          subst this
          rw [sub_self, min_eq_right h.le]
          exact max_eq_left (by linarith)

/-- The part of the natural residual that concerns the lower bound. -/
private noncomputable def lowerPart (lb : Option ℝ) (x f : ℝ) : ℝ :=
  match lb with | none => f | some l => min f (x - l)

/-- `min(a, b)` is controlled by the Fischer-Burmeister function: `|min(a, b)| ≤ κ |φ(a, b)|` whenever
`κ (2 - √2) ≥ 1`; `κ = 12/7` will do. -/
theorem min_le_phi (a b : ℝ) : |min a b| ≤ 12 / 7 * |phiFB a b| := by
  wlog hab : a ≤ b generalizing a b
  · have := this b a (le_of_not_ge hab)
    rw [min_comm]
    have e : phiFB b a = phiFB a b := by unfold phiFB; rw [add_comm b a, add_comm (b ^ 2)]
    rwa [e] at this
  rw [min_eq_left hab]
  have hs := Real.sqrt_nonneg (a ^ 2 + b ^ 2)
  have hsq := Real.sq_sqrt (by positivity : 0 ≤ a ^ 2 + b ^ 2)
  set r := √(a ^ 2 + b ^ 2) with hr
  rcases le_or_gt 0 a with ha | ha
  · -- `φ ≥ (7/12) a`
    rw [abs_of_nonneg ha]
    have h1 : r ≤ b + 5 / 12 * a := by
      apply Real.sqrt_le_iff.2
      constructor
      · nlinarith
      · nlinarith [mul_nonneg ha (sub_nonneg.2 hab)]
    have h2 : 7 / 12 * a ≤ phiFB a b := by unfold phiFB; linarith
    have : phiFB a b ≤ |phiFB a b| := le_abs_self _
    linarith
  · -- `φ ≤ a`
    rw [abs_of_neg ha]
    have h1 : b ≤ r := by
      apply Real.le_sqrt_of_sq_le
      nlinarith [sq_nonneg a]
    have h2 : phiFB a b ≤ a := by unfold phiFB; linarith
    have h3 : -phiFB a b ≤ |phiFB a b| := neg_le_abs _
    linarith

/-- The two-sided version: the natural residual is at most `3` times the smoothed one. -/
theorem natural_le (lb ub : Option ℝ) (x f P Q e : ℝ)
    (hP : match lb with | none => P = f | some l => P = phiFB f (x - l))
    (hQ : match ub with | none => Q = P | some u => Q = -phiFB (-P) (u - x)) (he : |Q| ≤ e) :
    |naturalResidual lb ub x f| ≤ 3 * e := by
  have he0 : 0 ≤ e := le_trans (abs_nonneg _) he
  -- the inner part
  set m : ℝ := lowerPart lb x f with hm
  have hm1 : |m| ≤ 12 / 7 * |P| := by
    cases lb with
    | none =>
      simp only at hP
      rw [hm, hP]
      simp only [lowerPart]
      have := abs_nonneg f
      linarith
    | some l => simp only at hP; rw [hm, hP]; exact min_le_phi _ _
  have hsign : 0 < m → 0 < P := by
    intro h
    cases lb with
    | none => simp only at hP; rw [hP]; exact h
    | some l =>
      simp only at hP
      rw [hP, C19_fischer_burmeister_sign]
      simp only [hm, lowerPart] at h
      exact ⟨lt_of_lt_of_le h (min_le_left _ _), lt_of_lt_of_le h (min_le_right _ _)⟩
  cases ub with
  | none =>
    simp only at hQ
    have e1 : naturalResidual lb none x f = m := rfl
    rw [e1]
    rw [hQ] at he
    linarith
  | some u =>
    simp only at hQ
    have e1 : naturalResidual lb (some u) x f = max m (x - u) := rfl
    rw [e1]
    have h1 : |min (-P) (u - x)| ≤ 12 / 7 * e := by
      have := min_le_phi (-P) (u - x)
      rw [hQ, abs_neg] at he
      linarith
    have h1' := abs_le.1 h1
    have hm' := abs_le.1 hm1
    rw [abs_le]
    rcases min_cases (-P) (u - x) with ⟨h2, h3⟩ | ⟨h2, h3⟩
    · rw [h2] at h1'
      have hPabs : |P| ≤ 12 / 7 * e := abs_le.2 ⟨by linarith [h1'.2], by linarith [h1'.1]⟩
      constructor
      · refine le_trans ?_ (le_max_left _ _)
        linarith [hm'.1]
      · apply max_le
        · linarith [hm'.2]
        · have := (abs_le.1 hPabs).2
          linarith
    · rw [h2] at h1'
      constructor
      · refine le_trans ?_ (le_max_right _ _)
        linarith [h1'.2]
      · apply max_le
        · by_cases hmp : 0 < m
          · have hPp := hsign hmp
            have : |P| ≤ 12 / 7 * e := by
              rw [abs_of_pos hPp]
              linarith [h1'.1]
            linarith [hm'.2]
          · linarith
        · linarith [h1'.1]

/-- **C74.**  With serial or sparse storage, and with the largest absolute entry as norm: if `ncpsolve` returns
without warning, every component of the point returned is an approximate solution of its complementarity
problem: the natural residual `max(min(f, x - a), x - b)` is at most `3 tol`. -/
theorem C74_ncpsolve {n : ℕ} {D : Type} (f : (Fin n → ℝ) → (Fin n → ℝ) × (Fin n → Fin n → ℝ))
    (a b : Fin n → Option ℝ) (jactype : JacType) (hj : jactype = .serial ∨ jactype = .sparse)
    (norm : (Fin n → ℝ) → ℝ) (hnorm : ∀ v i, |v i| ≤ norm v)
    (solve : (Fin n → Fin n → ℝ) → (Fin n → ℝ) → D) (sub : (Fin n → ℝ) → D → ℝ → (Fin n → ℝ))
    (tol : ℝ) (maxit : ℕ) (x : Fin n → ℝ)
    (hw : (ncpsolve f a b jactype norm solve sub tol maxit x).warned = false) :
    let z := (ncpsolve f a b jactype norm solve sub tol maxit x).x
    ∀ i, |naturalResidual (ncpLower (a i)) (ncpUpper (b i)) (z i) ((f z).1 i)| ≤ 3 * tol := by
  intro z i
  obtain ⟨-, -, -, -, -, h, -⟩ := C27_newton (K := ℝ) ⟨ncpFcmp f a b jactype, norm, solve, sub⟩ tol maxit x
  have hz : |(ncpFcmp f a b jactype z).1 i| ≤ tol := le_trans (hnorm _ i) (le_of_lt (h hw))
  have e : (ncpFcmp f a b jactype z).1 i
      = ncpFxnew (z i) (ncpPval (z i) (-(f z).1 i) (a i)) (b i) := by
    rcases hj with rfl | rfl <;> rfl
  rw [e] at hz
  set p := ncpPval (z i) (-(f z).1 i) (a i) with hp
  refine natural_le _ _ _ _ (-p) (-ncpFxnew (z i) p (b i)) tol ?_ ?_ (by rwa [abs_neg])
  · cases hl : ncpLower (a i) with
    | none => simp [hp, ncpPval, hl]
    | some l =>
      simp only [hp, ncpPval, hl, phiFB]
      have : (-(f z).1 i) ^ 2 + (l - z i) ^ 2 = (f z).1 i ^ 2 + (z i - l) ^ 2 := by ring
      rw [this]; ring
  · cases hu : ncpUpper (b i) with
    | none => simp [ncpFxnew, hu]
    | some u =>
      simp only [ncpFxnew, hu, phiFB, neg_neg]
      ring

/-- A case that returns without warning: `f(z) = z + 1` on `[0, ∞)` started at the solution. -/
example : (ncpsolve (n := 1) (D := Unit) (fun z => (fun j => z j + 1, fun _ _ => 1)) (fun _ => some 0)
    (fun _ => none) .serial (fun v => |v 0|) (fun _ _ => ()) (fun x _ _ => x) (1 / 10) 5 (fun _ => 0)).warned
      = false := by
  have : (ncpFcmp (fun z : Fin 1 → ℝ => (fun i => z i + 1, fun _ _ => 1)) (fun _ => some 0)
    (fun _ => none) .serial (fun _ => 0)).1 0 = 0 := by
    refine (C22_ncpsolve_partial _ _ _ (by intro i l _ u hu; simp at hu) _ (.inl rfl) _).2 ?_ 0
    intro i
    simp [SolvesMCP, ncpLower, ncpUpper, Option.filter]
  simp [ncpsolve, newton, newtonLoop, this]

end Dolo
