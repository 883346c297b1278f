import Verif.Model.NewtonRaise
import Verif.Props.Newton
import Verif.Props.SerialOps
import Verif.Props.Gauss
import Mathlib.LinearAlgebra.Matrix.ToLinearEquiv

/-!
# C150: newton and singular Jacobians
-/

set_option linter.unusedSectionVars false

namespace Dolo

section general

variable {K X V J D E : Type} [Field K] [LinearOrder K] [IsStrictOrderedRing K]

private theorem next_ok (P : RaisingProblem K X V J D E) (solve : J → V → D) (x y : X) (h : P.next x = .ok y)
    (hs : ∀ A b d, P.solve A b = .ok d → solve A b = d) :
    (⟨P.f, P.norm, solve, P.sub⟩ : NewtonProblem K X V J D).next x = y := by
  simp only [RaisingProblem.next, bind, Except.bind, pure, Except.pure] at h
  rcases hd : P.solve (P.f x).2 (P.f x).1 with e | d
  · rw [hd] at h; cases h
  · rw [hd] at h
    simp only [Except.ok.injEq] at h
    rw [← h]
    simp only [NewtonProblem.next, NewtonProblem.trial, hs _ _ _ hd]

/-- **C150, results.**  When `newton` returns, its result is the one of the same iterations with any linear solver that
agrees with the one used wherever that one does not raise: exceptions are never replaced by a step. -/
theorem C150_results (P : RaisingProblem K X V J D E) (solve : J → V → D)
    (hs : ∀ A b d, P.solve A b = .ok d → solve A b = d) (tol : K) (maxit : ℕ) (x : X) (r : NewtonResult X)
    (h : newtonE P tol maxit x = .ok r) : newton ⟨P.f, P.norm, solve, P.sub⟩ tol maxit x = r := by
  have gen : ∀ k it x, newtonLoopE P tol k it x = .ok r → newtonLoop ⟨P.f, P.norm, solve, P.sub⟩ tol k it x = r := by
    intro k
    induction k with
    | zero => intro it x h; simpa [newtonLoopE, newtonLoop] using h
    | succ k ih =>
      intro it x h
      simp only [newtonLoopE] at h
      simp only [newtonLoop]
      by_cases ht : P.norm (P.f x).1 < tol
      · rw [if_pos ht] at h ⊢
        simpa using h
      · rw [if_neg ht] at h ⊢
        rcases hn : P.next x with e | y
        · rw [hn] at h; cases h
        · rw [hn] at h
          rw [next_ok P solve x y hn hs]
          exact ih _ _ h
  exact gen maxit 0 x h

/-- One safeguarded Newton step with a solver that may raise: it has returned `dx`. -/
def RaisingStep (P : RaisingProblem K X V J D E) (x x' : X) : Prop :=
  ∃ dx, P.solve (P.f x).2 (P.f x).1 = .ok dx ∧ NewtonStep P.f P.norm (fun _ _ => dx) P.sub x x'

private theorem next_step (P : RaisingProblem K X V J D E) (x y : X) (h : P.next x = .ok y) : RaisingStep P x y := by
  rcases hd : P.solve (P.f x).2 (P.f x).1 with e | d
  · simp only [RaisingProblem.next, bind, Except.bind, hd] at h; cases h
  · refine ⟨d, hd, ?_⟩
    have h2 := newton_next_step (⟨P.f, P.norm, fun _ _ => d, P.sub⟩ : NewtonProblem K X V J D) x
    have e : (⟨P.f, P.norm, fun _ _ => d, P.sub⟩ : NewtonProblem K X V J D).next x = y := by
      simp only [RaisingProblem.next, bind, Except.bind, hd, pure, Except.pure, Except.ok.injEq] at h
      rw [← h]
      rfl
    rwa [e] at h2

private theorem newtonStep_unique {f : X → V × J} {norm : V → K} {solve : J → V → D} {sub : X → D → K → X} {x y z : X}
    (hy : NewtonStep f norm solve sub x y) (hz : NewtonStep f norm solve sub x z) : y = z := by
  obtain ⟨b, b1, rfl, b3, b4⟩ := hy
  obtain ⟨c, c1, rfl, c3, c4⟩ := hz
  rcases lt_trichotomy b c with h | h | h
  · rcases b4 with h4 | h4
    · exact absurd h4 (c3 b h)
    · omega
  · rw [h]
  · rcases c4 with h4 | h4
    · exact absurd h4 (b3 c h)
    · omega

private theorem next_of_step (P : RaisingProblem K X V J D E) (x y : X) (h : RaisingStep P x y) : P.next x = .ok y := by
  obtain ⟨d, hd, hs⟩ := h
  have hn : P.next x = .ok ((⟨P.f, P.norm, fun _ _ => d, P.sub⟩ : NewtonProblem K X V J D).next x) := by
    simp only [RaisingProblem.next, bind, Except.bind, hd, pure, Except.pure]
    rfl
  obtain ⟨d', hd', hs'⟩ := next_step P x _ hn
  rw [hd] at hd'
  cases hd'
  rw [hn, newtonStep_unique hs' hs]

/-- **C150, exceptions, converse.**  If the iterates lead to a point whose system cannot be solved, with a residual which is
not below the tolerance, before the budget of iterations is used up, then `newton` raises. -/
theorem C150_raises (P : RaisingProblem K X V J D E) (tol : K) (maxit : ℕ) (x : X) (e : E) (path : ℕ → X) (k : ℕ)
    (h0 : path 0 = x) (hk : k < maxit) (htol : ∀ t ≤ k, tol ≤ P.norm (P.f (path t)).1)
    (hstep : ∀ t < k, RaisingStep P (path t) (path (t + 1)))
    (he : P.solve (P.f (path k)).2 (P.f (path k)).1 = .error e) : newtonE P tol maxit x = .error e := by
  have gen : ∀ k m it (path : ℕ → X), k < m → (∀ t ≤ k, tol ≤ P.norm (P.f (path t)).1) →
      (∀ t < k, RaisingStep P (path t) (path (t + 1))) → P.solve (P.f (path k)).2 (P.f (path k)).1 = .error e →
      newtonLoopE P tol m it (path 0) = .error e := by
    intro k
    induction k with
    | zero =>
      intro m it path hk htol _ he
      obtain ⟨m, rfl⟩ : ∃ j, m = j + 1 := ⟨m - 1, by omega⟩
      simp only [newtonLoopE]
      rw [if_neg (not_lt.2 (htol 0 (le_refl _)))]
      simp only [RaisingProblem.next, he, bind, Except.bind]
    | succ k ih =>
      intro m it path hk htol hstep he
      obtain ⟨m, rfl⟩ : ∃ j, m = j + 1 := ⟨m - 1, by omega⟩
      simp only [newtonLoopE]
      rw [if_neg (not_lt.2 (htol 0 (by omega))), next_of_step P _ _ (hstep 0 (by omega))]
      exact ih m (it + 1) (fun t => path (t + 1)) (by omega) (fun t ht => htol (t + 1) (by omega))
        (fun t ht => hstep (t + 1) (by omega)) he
  rw [← h0]
  exact gen k maxit 0 path hk htol hstep he

/-- **C150, exceptions.**  If `newton` raises, it is the exception of the linear solver at some iterate: less than `maxit`
steps have been made, none of the iterates so far, including this one, has a residual below the tolerance. -/
theorem C150_exceptions (P : RaisingProblem K X V J D E) (tol : K) (maxit : ℕ) (x : X) (e : E)
    (h : newtonE P tol maxit x = .error e) :
    ∃ (path : ℕ → X) (k : ℕ), path 0 = x ∧ k < maxit ∧ (∀ t ≤ k, tol ≤ P.norm (P.f (path t)).1) ∧
      (∀ t < k, RaisingStep P (path t) (path (t + 1))) ∧ P.solve (P.f (path k)).2 (P.f (path k)).1 = .error e := by
  have gen : ∀ m it x, newtonLoopE P tol m it x = .error e →
      ∃ (path : ℕ → X) (k : ℕ), path 0 = x ∧ k < m ∧ (∀ t ≤ k, tol ≤ P.norm (P.f (path t)).1) ∧
      (∀ t < k, RaisingStep P (path t) (path (t + 1))) ∧ P.solve (P.f (path k)).2 (P.f (path k)).1 = .error e := by
    intro m
    induction m with
    | zero => intro it x h; cases h
    | succ m ih =>
      intro it x h
      simp only [newtonLoopE] at h
      by_cases ht : P.norm (P.f x).1 < tol
      · rw [if_pos ht] at h; cases h
      rw [if_neg ht] at h
      rcases hn : P.next x with e' | y
      · rw [hn] at h
        cases h
        refine ⟨fun _ => x, 0, rfl, by omega, fun t _ => not_lt.1 ht, fun t ht => by omega, ?_⟩
        rcases hd : P.solve (P.f x).2 (P.f x).1 with e2 | d
        · simp only [RaisingProblem.next, bind, Except.bind, hd, Except.error.injEq] at hn
          simp only [hn]
        · simp only [RaisingProblem.next, bind, Except.bind, hd, pure, Except.pure] at hn
          cases hn
      · rw [hn] at h
        obtain ⟨path, k, p0, p1, p2, p3, p4⟩ := ih _ _ h
        refine ⟨fun t => t.casesOn x path, k + 1, rfl, by omega, ?_, ?_, p4⟩
        · intro t htk
          rcases t with _ | t
          · exact not_lt.1 ht
          · exact p2 t (by omega)
        · intro t htk
          rcases t with _ | t
          · change RaisingStep P x (path 0)
            rw [p0]
            exact next_step P x y hn
          · exact p3 t (by omega)
  exact gen maxit 0 x h

/-- **C150, all cases.**  A solver that never raises along the way gives a result. -/
theorem C150_returns (P : RaisingProblem K X V J D E) (tol : K) (maxit : ℕ) (x : X)
    (h : ∀ y, tol ≤ P.norm (P.f y).1 → ∃ d, P.solve (P.f y).2 (P.f y).1 = .ok d) :
    ∃ r, newtonE P tol maxit x = .ok r := by
  rcases hr : newtonE P tol maxit x with e | r
  · obtain ⟨path, k, -, -, p2, -, p4⟩ := C150_exceptions P tol maxit x e hr
    obtain ⟨d, hd⟩ := h (path k) (p2 k (le_refl _))
    rw [hd] at p4
    cases p4
  · exact ⟨r, rfl⟩

end general

section serial

variable {K : Type} [Field K] [LinearOrder K] [IsStrictOrderedRing K]

/-- `numpy.linalg.solve` in exact arithmetic: it returns a solution if the matrix is invertible, and raises otherwise. -/
structure VecSolver.Exact (solve : VecSolver K) : Prop where
  correct : solve.Correct
  returns : ∀ n A b, (∃ x, solve n A b = .ok x) ↔ Nonsingular n A

/-- The arrays agree on `N` points of dimension `n`. -/
def SameEntries (N n : ℕ) (x y : ℕ → ℕ → K) : Prop := ∀ p < N, ∀ i < n, x p i = y p i

/-- `f` depends on the entries of the array only. -/
def DependsOnEntries (N n : ℕ) (f : (ℕ → ℕ → K) → (ℕ → ℕ → K) × (ℕ → ℕ → ℕ → K)) : Prop :=
  ∀ x y, SameEntries N n x y → SameEntries N n (f x).1 (f y).1 ∧
    ∀ p < N, ∀ i < n, ∀ j < n, (f x).2 p i j = (f y).2 p i j

private theorem maxAbs_congr {N n : ℕ} {v w : ℕ → ℕ → K} (h : SameEntries N n v w) : maxAbs N n v = maxAbs N n w := by
  unfold maxAbs
  congr 1
  rw [List.flatMap_congr]
  intro p hp
  refine List.map_congr_left fun i hi => ?_
  rw [h p (List.mem_range.1 hp) i (List.mem_range.1 hi)]

private theorem stepE_ok (solve : VecSolver K) (N n : ℕ) (dv : ℕ → ℕ → ℕ → K) (v : ℕ → ℕ → K) (d : ℕ → ℕ → K)
    (h : serialStepE solve N n dv v = .ok d) : ∀ p < N, solve n (dv p) (v p) = .ok (d p) := by
  unfold serialStepE serialSolveDiagnose at h
  rcases hs : serialSolveLoop solve n 0 ((List.range N).map dv) ((List.range N).map v) with e | sol
  · rw [hs] at h; cases h
  rw [hs] at h
  simp only [bind, Except.bind, pure, Except.pure, Except.ok.injEq] at h
  obtain ⟨-, h2, h3⟩ := (solveLoop_ok solve n _ _ 0 sol).1 hs
  intro p hp
  have hp' : p < sol.length := by rw [h2]; simpa using hp
  have := h3 p (dv p) (v p) sol[p] (by simp [hp]) (by simp [hp]) (List.getElem?_eq_getElem hp')
  rw [this, ← h]
  simp [List.getElem?_eq_getElem hp']

private theorem solveLoop_index (solve : VecSolver K) (n : ℕ) (A : List (ℕ → ℕ → K)) (B : List (ℕ → K)) (i : ℕ)
    (hl : B.length ≤ A.length) (h : serialSolveLoop solve n i A B = .error .index) : False := by
  induction B generalizing A i with
  | nil => cases A <;> cases h
  | cons b B ih =>
    cases A with
    | nil => simp at hl
    | cons a A =>
      simp only [serialSolveLoop] at h
      cases hs : solve n a b with
      | error e => simp [hs] at h
      | ok s =>
        simp only [hs] at h
        cases hr : serialSolveLoop solve n (i + 1) A B with
        | ok rest => simp [hr] at h
        | error e =>
          simp only [hr, Except.error.injEq] at h
          subst h
          exact ih A (i + 1) (by simpa using hl) hr

private theorem solves_congr {n : ℕ} {A B : ℕ → ℕ → K} {b c v : ℕ → K} (hA : ∀ i < n, ∀ j < n, A i j = B i j)
    (hb : ∀ i < n, b i = c i) (h : Solves n A b v) : Solves n B c v := by
  intro i hi
  rw [← hb i hi, ← h i hi]
  exact Finset.sum_congr rfl fun j hj => by rw [hA i hi j (Finset.mem_range.1 hj)]

private theorem nonsingular_congr {n : ℕ} {A B : ℕ → ℕ → K} (hA : ∀ i < n, ∀ j < n, A i j = B i j)
    (h : Nonsingular n A) : Nonsingular n B := fun v hv =>
  h v (solves_congr (fun i hi j hj => (hA i hi j hj).symm) (fun _ _ => rfl) hv)

private theorem step_eq (solve : VecSolver K) (hsolve : solve.Exact) (N n : ℕ) (dv dv' : ℕ → ℕ → ℕ → K) (v v' : ℕ → ℕ → K)
    (d : ℕ → ℕ → K) (h : serialStepE solve N n dv v = .ok d) (hv : SameEntries N n v v')
    (hd : ∀ p < N, ∀ i < n, ∀ j < n, dv p i j = dv' p i j) : SameEntries N n d (serialStep N n dv' v') := by
  intro p hp i hi
  have h1 := stepE_ok solve N n dv v d h p hp
  have hns : Nonsingular n (dv' p) := nonsingular_congr (hd p hp) ((hsolve.returns n _ _).1 ⟨_, h1⟩)
  have h2 : Solves n (dv' p) (v' p) (d p) := solves_congr (hd p hp) (hv p hp) (hsolve.correct n _ _ _ h1)
  rw [(C24_gauss_solves n _ _ hns).2 _ h2 i hi]
  simp [serialStep, serialSolve, hp]

/-- **C150, elimination.**  With several points, the default linear solver (point by point, `diagnose=True`) and the
elimination (`diagnose=False`) give the same result whenever the first one returns. -/
theorem C150_elimination (solve : VecSolver K) (hsolve : solve.Exact) (N n : ℕ)
    (f : (ℕ → ℕ → K) → (ℕ → ℕ → K) × (ℕ → ℕ → ℕ → K)) (hf : DependsOnEntries N n f) (tol : K) (maxit : ℕ)
    (x : ℕ → ℕ → K) (r : NewtonResult (ℕ → ℕ → K)) (h : newtonE (serialProblemE solve N n f) tol maxit x = .ok r) :
    (newton (serialProblem N n f) tol maxit x).it = r.it ∧ (newton (serialProblem N n f) tol maxit x).warned = r.warned ∧
    ∀ p < N, ∀ i < n, (newton (serialProblem N n f) tol maxit x).x p i = r.x p i := by
  have gen : ∀ k it x y, SameEntries N n x y → newtonLoopE (serialProblemE solve N n f) tol k it x = .ok r →
      (newtonLoop (serialProblem N n f) tol k it y).it = r.it ∧
      (newtonLoop (serialProblem N n f) tol k it y).warned = r.warned ∧
      SameEntries N n (newtonLoop (serialProblem N n f) tol k it y).x r.x := by
    intro k
    induction k with
    | zero =>
      intro it x y hxy h
      simp only [newtonLoopE, Except.ok.injEq] at h
      subst h
      exact ⟨rfl, rfl, fun p hp i hi => (hxy p hp i hi).symm⟩
    | succ k ih =>
      intro it x y hxy h
      simp only [newtonLoopE] at h
      simp only [newtonLoop]
      obtain ⟨hv, hd⟩ := hf x y hxy
      have hn : (serialProblem N n f).norm ((serialProblem N n f).f y).1
          = (serialProblemE solve N n f).norm ((serialProblemE solve N n f).f x).1 := (maxAbs_congr hv).symm
      rw [hn]
      by_cases ht : (serialProblemE solve N n f).norm ((serialProblemE solve N n f).f x).1 < tol
      · rw [if_pos ht] at h ⊢
        simp only [Except.ok.injEq] at h
        subst h
        exact ⟨rfl, rfl, fun p hp i hi => (hxy p hp i hi).symm⟩
      rw [if_neg ht] at h ⊢
      rcases hx : serialStepE solve N n (f x).2 (f x).1 with e | d
      · simp only [RaisingProblem.next, serialProblemE, hx, bind, Except.bind] at h
        cases h
      have hdd := step_eq solve hsolve N n _ _ _ _ d hx hv hd
      have ht : ∀ t, SameEntries N n (fun p i => x p i - d p i * t)
          (fun p i => y p i - serialStep N n (f y).2 (f y).1 p i * t) := by
        intro t p hp i hi
        simp only [hxy p hp i hi, hdd p hp i hi]
      simp only [RaisingProblem.next, serialProblemE, hx, bind, Except.bind, pure, Except.pure] at h
      have hb : (fun b => decide ((serialProblem N n f).norm ((serialProblem N n f).f
          ((serialProblem N n f).trial y ((serialProblem N n f).solve ((serialProblem N n f).f y).2
            ((serialProblem N n f).f y).1) b)).1 < (serialProblem N n f).norm ((serialProblem N n f).f y).1))
          = fun b => decide (maxAbs N n (f fun p i => x p i - d p i * (1 / 2 ^ b)).1 < maxAbs N n (f x).1) := by
        funext b
        rw [maxAbs_congr hv, maxAbs_congr (hf _ _ (ht (1 / 2 ^ b))).1]
        rfl
      have hnext : SameEntries N n (fun p i => x p i - d p i * (1 / 2 ^ backSteps
          (fun b => decide (maxAbs N n (f fun p i => x p i - d p i * (1 / 2 ^ b)).1 < maxAbs N n (f x).1)) 29 0))
          ((serialProblem N n f).next y) := by
        simp only [NewtonProblem.next]
        rw [hb]
        exact ht _
      exact ih _ _ _ hnext h
  exact gen maxit 0 x x (fun _ _ _ _ => rfl) h

/-- **C150, the point is named.**  If `newton` raises on several points, the exception names a point `i` whose Jacobian at
the current iterate is singular, carries this Jacobian and this residual, and the Jacobians of the points before it are
not singular. -/
theorem C150_names_point (solve : VecSolver K) (hsolve : solve.Exact) (N n : ℕ)
    (f : (ℕ → ℕ → K) → (ℕ → ℕ → K) × (ℕ → ℕ → ℕ → K)) (tol : K) (maxit : ℕ) (x : ℕ → ℕ → K) (e : SolveErr K)
    (h : newtonE (serialProblemE solve N n f) tol maxit x = .error e) :
    ∃ (path : ℕ → ℕ → ℕ → K) (k q : ℕ), path 0 = x ∧ k < maxit ∧
      (∀ t < k, RaisingStep (serialProblemE solve N n f) (path t) (path (t + 1))) ∧
      (∀ t ≤ k, tol ≤ maxAbs N n (f (path t)).1) ∧
      q < N ∧ e = .point q ((f (path k)).1 q) ((f (path k)).2 q) ∧ ¬ Nonsingular n ((f (path k)).2 q) ∧
      ∀ p < q, Nonsingular n ((f (path k)).2 p) := by
  obtain ⟨path, k, p0, p1, p2, p3, p4⟩ := C150_exceptions _ tol maxit x e h
  have h5 : serialStepE solve N n (f (path k)).2 (f (path k)).1 = .error e := p4
  unfold serialStepE at h5
  rcases hs : serialSolveDiagnose solve n ((List.range N).map (f (path k)).2) ((List.range N).map (f (path k)).1)
    with e' | sol
  swap
  · rw [hs] at h5; cases h5
  rw [hs] at h5
  simp only [bind, Except.bind, Except.error.injEq] at h5
  subst h5
  obtain ⟨-, hr, hp⟩ := C118_solve solve hsolve.correct n ((List.range N).map (f (path k)).2)
    ((List.range N).map (f (path k)).1)
  rcases e' with ⟨q, v, A⟩ | _
  · obtain ⟨h1, h2, ⟨e3, h3⟩, h4⟩ := hp q v A hs
    have hq : q < N := by
      by_contra hq
      rw [List.getElem?_eq_none (by simpa using hq)] at h1
      cases h1
    simp only [List.getElem?_map, List.getElem?_range hq, Option.map_some, Option.some.injEq] at h1 h2
    subst h1 h2
    refine ⟨path, k, q, p0, p1, p3, p2, hq, rfl, ?_, ?_⟩
    · intro hns
      obtain ⟨s, hs⟩ := (hsolve.returns n _ ((f (path k)).1 q)).2 hns
      rw [hs] at h3
      cases h3
    · intro p hpq
      obtain ⟨J', x', s, h1, h2, h3⟩ := h4 p hpq
      simp only [List.getElem?_map, List.getElem?_range (by omega : p < N), Option.map_some, Option.some.injEq] at h1 h2
      subst h1 h2
      exact (hsolve.returns n _ _).1 ⟨s, h3⟩
  · exfalso
    exact solveLoop_index solve n _ _ 0 (by simp) hs

/-- **C150, regular problems.**  If the Jacobians are invertible wherever the residual is not below the tolerance, `newton`
returns. -/
theorem C150_regular (solve : VecSolver K) (hsolve : solve.Exact) (N n : ℕ)
    (f : (ℕ → ℕ → K) → (ℕ → ℕ → K) × (ℕ → ℕ → ℕ → K)) (tol : K) (maxit : ℕ) (x : ℕ → ℕ → K)
    (hreg : ∀ y, tol ≤ maxAbs N n (f y).1 → ∀ p < N, Nonsingular n ((f y).2 p)) :
    ∃ r, newtonE (serialProblemE solve N n f) tol maxit x = .ok r := by
  rcases hr : newtonE (serialProblemE solve N n f) tol maxit x with e | r
  · obtain ⟨path, k, q, -, -, -, p2, hq, -, hs, -⟩ := C150_names_point solve hsolve N n f tol maxit x e hr
    exact absurd (hreg _ (p2 k (le_refl _)) q hq) hs
  · exact ⟨r, rfl⟩

end serial

/-- `numpy.linalg.solve` in exact arithmetic exists: the elimination of C24, preceded by a test. -/
def testedSolver : VecSolver ℚ := fun n A b =>
  if (Matrix.of fun i j : Fin n => A i j).det = 0 then .error .linAlgError
  else .ok (gaussSolve n (n + 1) fun i j => if j < n then A i j else b i)

private theorem nonsingular_iff_det {n : ℕ} (A : ℕ → ℕ → ℚ) :
    Nonsingular n A ↔ (Matrix.of fun i j : Fin n => A i j).det ≠ 0 := by
  constructor
  · intro h hd
    obtain ⟨v, hv, h0⟩ := Matrix.exists_mulVec_eq_zero_iff.2 hd
    refine hv (funext fun j => ?_)
    have := h (fun i => if hi : i < n then v ⟨i, hi⟩ else 0) (fun i hi => ?_) j j.2
    · simpa using this
    · have h1 := congrFun h0 ⟨i, hi⟩
      simp only [Matrix.mulVec, dotProduct, Matrix.of_apply, Pi.zero_apply] at h1
      rw [Finset.sum_range, ← h1]
      exact Finset.sum_congr rfl fun j _ => by simp
  · intro hd v hv j hj
    by_contra hne
    refine hd (Matrix.exists_mulVec_eq_zero_iff.1 ⟨fun i => v i, ?_, ?_⟩)
    · exact fun e => hne (congrFun e ⟨j, hj⟩)
    · funext i
      have := hv i i.2
      rw [Finset.sum_range] at this
      simpa [Matrix.mulVec, dotProduct] using this

theorem testedSolver_exact : VecSolver.Exact testedSolver := by
  constructor
  · intro n A b x h
    unfold testedSolver at h
    by_cases hA : (Matrix.of fun i j : Fin n => A i j).det = 0
    · rw [if_pos hA] at h; cases h
    · rw [if_neg hA] at h
      cases h
      exact (C24_gauss_solves n A b ((nonsingular_iff_det A).2 hA)).1
  · intro n A b
    rw [nonsingular_iff_det]
    unfold testedSolver
    by_cases hA : (Matrix.of fun i j : Fin n => A i j).det = 0
    · simp [hA]
    · simp [hA]

/-- The equations `z² = 0` and `z = 1` with their derivatives. -/
def twoEquations : ℕ → ℚ → ℚ × ℚ := fun p z => if p = 0 then (z ^ 2, 2 * z) else (z - 1, 1)

/-- **C150 (negative).**  A point that is already solved can make the whole computation raise.  Two equations, `z² = 0` and
`z = 1`, both from `z = 0`: each of them alone is solved; together, the first one, which needs no step, has a singular
Jacobian and `newton` raises `Error solving point 0`. -/
theorem C150_solved_point_fails :
    ∃ (F : ℕ → ℚ → ℚ × ℚ) (solve : VecSolver ℚ), solve.Exact ∧
      (∀ q < 2, ∃ r, newtonE (serialProblemE solve 1 1 fun x => (fun _ _ => (F q (x 0 0)).1, fun _ _ _ => (F q (x 0 0)).2))
        (1 / 10 ^ 6) 5 (fun _ _ => 0) = .ok r ∧ r.warned = false ∧ (F q (r.x 0 0)).1 = 0) ∧
      ∃ v A, newtonE (serialProblemE solve 2 1 fun x => (fun p _ => (F p (x p 0)).1, fun p _ _ => (F p (x p 0)).2))
        (1 / 10 ^ 6) 5 (fun _ _ => 0) = .error (.point 0 v A) ∧ v 0 = 0 ∧ A 0 0 = 0 := by
  refine ⟨twoEquations, testedSolver, testedSolver_exact, fun q hq => ?_, ?_⟩
  · have h : ∀ q < 2, ((newtonE (serialProblemE testedSolver 1 1 fun x => (fun _ _ => (twoEquations q (x 0 0)).1,
        fun _ _ _ => (twoEquations q (x 0 0)).2)) (1 / 10 ^ 6) 5 (fun _ _ => 0)).toOption.map
          fun r => (r.warned, (twoEquations q (r.x 0 0)).1)) = some (false, 0) := by decide +kernel
    have h2 := h q hq
    rcases hr : newtonE (serialProblemE testedSolver 1 1 fun x => (fun _ _ => (twoEquations q (x 0 0)).1,
        fun _ _ _ => (twoEquations q (x 0 0)).2)) (1 / 10 ^ 6) 5 (fun _ _ => 0) with e | r
    · rw [hr] at h2; cases h2
    · rw [hr] at h2
      simp only [Except.toOption, Option.map_some, Option.some.injEq, Prod.mk.injEq] at h2
      exact ⟨r, rfl, h2⟩
  · rcases hr : newtonE (serialProblemE testedSolver 2 1 fun x => (fun p _ => (twoEquations p (x p 0)).1,
        fun p _ _ => (twoEquations p (x p 0)).2)) (1 / 10 ^ 6) 5 (fun _ _ => 0) with e | r
    · have h : (match newtonE (serialProblemE testedSolver 2 1 fun x => (fun p _ => (twoEquations p (x p 0)).1,
        fun p _ _ => (twoEquations p (x p 0)).2)) (1 / 10 ^ 6) 5 (fun _ _ => 0) with
        | .error (.point i v A) => some (i, v 0, A 0 0)
        | _ => none) = some (0, 0, 0) := by decide +kernel
      rw [hr] at h
      rcases e with ⟨i, v, A⟩ | _
      · simp only [Option.some.injEq, Prod.mk.injEq] at h
        obtain ⟨rfl, h1, h2⟩ := h
        exact ⟨v, A, rfl, h1, h2⟩
      · cases h
    · have h : (newtonE (serialProblemE testedSolver 2 1 fun x => (fun p _ => (twoEquations p (x p 0)).1,
        fun p _ _ => (twoEquations p (x p 0)).2)) (1 / 10 ^ 6) 5 (fun _ _ => 0)).toOption.isNone = true := by decide +kernel
      rw [hr] at h
      cases h

/-- The hypotheses of `C150_elimination` and `C150_regular` are met: `2 z = 3` at two points, from `0`. -/
example : VecSolver.Exact testedSolver ∧
    DependsOnEntries 2 1 (fun x : ℕ → ℕ → ℚ => (fun p i => 2 * x p i - 3, fun _ _ _ => 2)) ∧
    (∀ y : ℕ → ℕ → ℚ, (1 / 10 ^ 6 : ℚ) ≤ maxAbs 2 1 (fun p i => 2 * y p i - 3) → ∀ p < 2, Nonsingular 1 fun _ _ => (2 : ℚ)) ∧
    ∃ r, newtonE (serialProblemE testedSolver 2 1 fun x => (fun p i => 2 * x p i - 3, fun _ _ _ => 2))
      (1 / 10 ^ 6) 5 (fun _ _ => 0) = .ok r := by
  have hns : Nonsingular 1 fun _ _ => (2 : ℚ) := (nonsingular_iff_det _).2 (by simp)
  refine ⟨testedSolver_exact, ?_, fun _ _ _ _ => hns, ?_⟩
  · intro x y h
    exact ⟨fun p hp i hi => by simp only [h p hp i hi], fun _ _ _ _ _ _ => rfl⟩
  · exact C150_regular testedSolver testedSolver_exact 2 1 _ _ _ _ fun _ _ _ _ => hns

end Dolo
