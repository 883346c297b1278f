import Mathlib.Tactic.NormNum
import Mathlib.Tactic.Linarith
import Verif.Props.PerfectForesight
import Verif.Model.Simulation
import Verif.Model.Loops

/-!
# C135: interrupted computations can be resumed

A run with `a` steps, followed by a run with `c` steps started from what the first one returned, against one run with
`a + c` steps.
-/

set_option linter.unusedSectionVars false

namespace Dolo

variable {K X V J D : Type} [Field K] [LinearOrder K] [IsStrictOrderedRing K]

theorem newtonLoop_it (P : NewtonProblem K X V J D) (tol : K) (k : ℕ) : ∀ it x,
    newtonLoop P tol k it x = ⟨(newtonLoop P tol k 0 x).x, it + (newtonLoop P tol k 0 x).it,
      (newtonLoop P tol k 0 x).warned⟩ := by
  induction k with
  | zero => intro it x; simp [newtonLoop]
  | succ k ih =>
    intro it x
    rw [newtonLoop, newtonLoop]
    by_cases h : P.norm (P.f x).1 < tol
    · simp [h]
    · rw [if_neg h, if_neg h, ih (it + 1), ih (0 + 1)]
      simp [Nat.add_assoc]

/-- **C135, `newton`** (and `ncpsolve`).  Whatever the two budgets, the second run from the point returned by the first ends
where one run with the sum of the budgets ends, with the same warning. -/
theorem C135_newton (P : NewtonProblem K X V J D) (tol : K) (a c : ℕ) (hc : 1 ≤ c) (x : X) :
    (newton P tol (a + c) x).x = (newton P tol c (newton P tol a x).x).x ∧
    (newton P tol (a + c) x).it = (newton P tol a x).it + (newton P tol c (newton P tol a x).x).it ∧
    (newton P tol (a + c) x).warned = (newton P tol c (newton P tol a x).x).warned := by
  unfold newton
  induction a generalizing x with
  | zero => simp [newtonLoop]
  | succ a ih =>
    have h1 : newtonLoop P tol (a + 1 + c) 0 x = if P.norm (P.f x).1 < tol then ⟨x, 0, false⟩
        else newtonLoop P tol (a + c) (0 + 1) (P.next x) := by
      rw [show a + 1 + c = (a + c) + 1 by omega, newtonLoop]
    have h2 : newtonLoop P tol (a + 1) 0 x = if P.norm (P.f x).1 < tol then ⟨x, 0, false⟩
        else newtonLoop P tol a (0 + 1) (P.next x) := by rw [newtonLoop]
    rw [h1, h2]
    by_cases h : P.norm (P.f x).1 < tol
    · obtain ⟨d, rfl⟩ : ∃ d, c = d + 1 := ⟨c - 1, by omega⟩
      simp [h, newtonLoop]
    · rw [if_neg h, if_neg h, newtonLoop_it P tol (a + c), newtonLoop_it P tol a]
      obtain ⟨h3, h4, h5⟩ := ih (P.next x)
      refine ⟨h3, ?_, h5⟩
      simp only
      rw [h4]
      omega

theorem tiLoop_it (update : X → X) (dist : X → X → K) (tol : K) (k : ℕ) : ∀ it err x last,
    tiLoop update dist tol k it err x last = (it + (tiLoop update dist tol k 0 err x last).1,
      (tiLoop update dist tol k 0 err x last).2) := by
  induction k with
  | zero => intro it err x last; simp [tiLoop]
  | succ k ih =>
    intro it err x last
    rw [tiLoop, tiLoop]
    split
    · simp only
      rw [ih (it + 1), ih (0 + 1)]
      simp [Nat.add_assoc]
    · simp

/-- **C135, `time_iteration`.**  When the first run used up its passes without settling, the second run, started from the
rule returned, ends like one run with the sum of the passes: same rule, same error, same flag. -/
theorem C135_time_iteration (update : X → X) (dist : X → X → K) (tol : K) (a c : ℕ) (hc : 1 ≤ c) (x0 : X)
    (r1 r2 : TIResult X K) (h1 : timeIteration update dist tol a x0 = .ok r1) (hopen : tol < r1.err)
    (h2 : timeIteration update dist tol c r1.controls = .ok r2) :
    timeIteration update dist tol (a + c) x0 = .ok ⟨r2.controls, r1.iterations + r2.iterations, r2.converged, r2.err⟩ := by
  obtain ⟨d, rfl⟩ : ∃ d, c = d + 1 := ⟨c - 1, by omega⟩
  have key : ∀ a it err x last it' err' x', tiLoop update dist tol a it err x last = (it', err', some x') → tol < err' →
      (a = 0 → tol < err ∧ x' = x) → 
      tiLoop update dist tol (a + (d + 1)) it err x last = tiLoop update dist tol (d + 1) it' err' x' (some x') := by
    intro a
    induction a with
    | zero =>
      intro it err x last it' err' x' h ho hz
      simp only [tiLoop, Prod.mk.injEq] at h
      obtain ⟨rfl, rfl, rfl⟩ := h
      obtain ⟨-, rfl⟩ := hz rfl
      simp
    | succ a ih =>
      intro it err x last it' err' x' h ho hz
      rw [show a + 1 + (d + 1) = (a + (d + 1)) + 1 by omega, tiLoop]
      rw [tiLoop] at h
      by_cases he : err > tol
      · rw [if_pos he] at h ⊢
        simp only at h ⊢
        refine ih _ _ _ _ _ _ _ h ho ?_
        rintro rfl
        simp only [tiLoop, Prod.mk.injEq, Option.some.injEq] at h
        exact ⟨by rw [h.2.1]; exact ho, h.2.2.symm⟩
      · rw [if_neg he] at h
        simp only [Prod.mk.injEq] at h
        exact absurd (h.2.1 ▸ ho) he
  unfold timeIteration at h1 h2 ⊢
  rcases ht : tiLoop update dist tol a 0 10 x0 none with ⟨it', err', last'⟩
  rw [ht] at h1
  cases last' with
  | none => nomatch h1
  | some x' =>
    simp only [Except.ok.injEq] at h1
    subst h1
    simp only at hopen h2 ⊢
    have ha : a ≠ 0 := by
      rintro rfl
      simp [tiLoop] at ht
    have h10 : (10 : K) > tol := by
      by_contra hle
      obtain ⟨a', rfl⟩ := Nat.exists_eq_succ_of_ne_zero ha
      rw [tiLoop, if_neg hle] at ht
      simp at ht
    rw [key a 0 10 x0 none it' err' x' ht hopen (fun h => absurd h ha)]
    have e1 : tiLoop update dist tol (d + 1) it' err' x' (some x') =
        tiLoop update dist tol d (it' + 1) (dist (update x') x') (update x') (some (update x')) := by
      rw [tiLoop, if_pos hopen]
    have e2 : tiLoop update dist tol (d + 1) 0 10 x' none =
        tiLoop update dist tol d (0 + 1) (dist (update x') x') (update x') (some (update x')) := by
      rw [tiLoop, if_pos h10]
    rw [e2] at h2
    rw [e1]
    rw [tiLoop_it update dist tol d (0 + 1)] at h2
    rw [tiLoop_it update dist tol d (it' + 1)]
    generalize tiLoop update dist tol d 0 (dist (update x') x') (update x') (some (update x')) = q at h2 ⊢
    obtain ⟨i, e, l⟩ := q
    cases l with
    | none => nomatch h2
    | some y =>
      simp only [Except.ok.injEq] at h2 ⊢
      subst h2
      simp [Nat.add_assoc]

/-- **C135, `improved_time_iteration`.**  When the first run used up its passes, the second run, started from the rule
returned, ends like one run with the sum of the passes. -/
theorem C135_improved_time_iteration (norm : X → K) (trial : X → ℕ → X) (b : ℕ) (tol : K) (a c : ℕ) (hc : 1 ≤ c)
    (x0 : X) (r1 r2 : ITIResult X K) (h1 : improvedTimeIteration norm trial (b + 1) tol a x0 = .ok r1)
    (hopen : r1.converged = false) (h2 : improvedTimeIteration norm trial (b + 1) tol c r1.x = .ok r2) :
    improvedTimeIteration norm trial (b + 1) tol (a + c) x0 = .ok ⟨r2.x, a + r2.it, r2.err_0, r2.converged⟩ := by
  have step : ∀ k it x last, itiLoop norm trial (b + 1) tol (k + 1) it x last =
      if norm x < tol then .ok (x, some (it, norm x))
      else itiLoop norm trial (b + 1) tol k (it + 1) (itiSearch (trial x) norm (norm x) b) (some (it, norm x)) := by
    intro k it x last; rw [itiLoop]
  have shift : ∀ k it x last, itiLoop norm trial (b + 1) tol (k + 1) it x last =
      (itiLoop norm trial (b + 1) tol (k + 1) 0 x none).map fun p => (p.1, p.2.map fun q => (it + q.1, q.2)) := by
    intro k
    induction k with
    | zero =>
      intro it x last
      rw [step 0 it, step 0 0]
      by_cases hx : norm x < tol
      · rw [if_pos hx, if_pos hx]; simp [Except.map]
      · rw [if_neg hx, if_neg hx]; simp [itiLoop, Except.map]
    | succ k ih =>
      intro it x last
      rw [step (k + 1) it, step (k + 1) 0]
      by_cases hx : norm x < tol
      · rw [if_pos hx, if_pos hx]; simp [Except.map]
      · rw [if_neg hx, if_neg hx, ih (it + 1), ih (0 + 1)]
        rcases itiLoop norm trial (b + 1) tol (k + 1) 0 _ none with e | ⟨y, l⟩
        · rfl
        · cases l <;> simp [Except.map, Nat.add_assoc]
  obtain ⟨d, rfl⟩ : ∃ d, c = d + 1 := ⟨c - 1, by omega⟩
  have key : ∀ a it x last y it' e, itiLoop norm trial (b + 1) tol a it x last = .ok (y, some (it', e)) → ¬ e < tol →
      itiLoop norm trial (b + 1) tol (a + (d + 1)) it x last =
        itiLoop norm trial (b + 1) tol (d + 1) (it + a) y (some (it', e)) := by
    intro a
    induction a with
    | zero =>
      intro it x last y it' e h hne
      simp only [itiLoop, Except.ok.injEq, Prod.mk.injEq] at h
      obtain ⟨rfl, rfl⟩ := h
      simp
    | succ a ih =>
      intro it x last y it' e h hne
      rw [step] at h
      rw [show a + 1 + (d + 1) = (a + (d + 1)) + 1 by omega, step]
      split at h
      · next hlt =>
        simp only [Except.ok.injEq, Prod.mk.injEq, Option.some.injEq] at h
        exact absurd (h.2.2 ▸ hlt) hne
      · next hlt =>
        rw [if_neg hlt, ih _ _ _ _ _ _ h hne]
        congr 1
        omega
  unfold improvedTimeIteration at h1 h2 ⊢
  rcases ht : itiLoop norm trial (b + 1) tol a 0 x0 none with e | ⟨y, l⟩
  · rw [ht] at h1; nomatch h1
  · rw [ht] at h1
    cases l with
    | none => nomatch h1
    | some q =>
      obtain ⟨it', e⟩ := q
      simp only [bind, Except.bind, pure, Except.pure, Except.ok.injEq] at h1
      subst h1
      simp only [decide_eq_false_iff_not] at hopen
      rw [key a 0 x0 none y it' e ht hopen, shift d (0 + a)]
      simp only at h2
      generalize itiLoop norm trial (b + 1) tol (d + 1) 0 y none = w at h2 ⊢
      rcases w with e2 | ⟨z, l2⟩
      · nomatch h2
      · cases l2 with
        | none => nomatch h2
        | some q2 =>
          simp only [bind, Except.bind, pure, Except.pure, Except.ok.injEq] at h2
          subst h2
          simp [Except.map, bind, Except.bind, pure, Except.pure]

theorem epLoop_it (T : X → X) (dist : X → X → K) (tol : K) (k : ℕ) : ∀ it err v set,
    epLoop T dist tol k it err v set = ⟨(epLoop T dist tol k 0 err v set).solution,
      it + (epLoop T dist tol k 0 err v set).iterations, tol, (epLoop T dist tol k 0 err v set).error⟩ := by
  induction k with
  | zero => intro it err v set; simp [epLoop]
  | succ k ih =>
    intro it err v set
    rw [epLoop, epLoop]
    split
    · simp only
      rw [ih (it + 1), ih (0 + 1)]
      simp [Nat.add_assoc]
    · simp

theorem epLoop_open (T : X → X) (dist : X → X → K) (tol : K) (a : ℕ) : ∀ it err v set,
    tol < (epLoop T dist tol (a + 1) it err v set).error → tol < err →
    (epLoop T dist tol (a + 1) it err v set).solution = some (T^[a] v) ∧
      ∀ d, epLoop T dist tol (a + (d + 1)) it err v set = epLoop T dist tol (d + 1) (it + a)
        (if a = 0 then err else dist (T^[a] v) (T^[a - 1] v)) (T^[a] v) (if a = 0 then set else some (T^[a - 1] v)) ∧
        (0 < a → tol < dist (T^[a] v) (T^[a - 1] v)) := by
  induction a with
  | zero =>
    intro it err v set ho he
    rw [epLoop, if_pos he]
    simp [epLoop]
  | succ a ih =>
    intro it err v set ho he
    rw [epLoop, if_pos he] at ho
    simp only at ho
    have he' : tol < dist (T v) v := by
      by_contra hle
      rw [epLoop, if_neg hle] at ho
      exact hle ho
    obtain ⟨h1, h2⟩ := ih _ _ _ _ ho he'
    refine ⟨?_, fun d => ⟨?_, fun _ => ?_⟩⟩
    · rw [epLoop, if_pos he]
      simp only
      rw [h1, Function.iterate_succ_apply]
    · rw [show a + 1 + (d + 1) = (a + (d + 1)) + 1 by omega, epLoop, if_pos he]
      simp only
      rw [(h2 d).1, show it + 1 + a = it + (a + 1) by omega]
      rcases a with _ | a
      · simp
      · simp [Function.iterate_succ_apply]
    · rcases a with _ | a
      · simpa using he'
      · have := (h2 d).2 (by omega)
        simpa [Function.iterate_succ_apply] using this

/-- **C135, `evaluate_policy`.**  The solution holds the values before the last pass, so the last pass of an interrupted run is
made again: `a + 1` passes followed by `c` passes are `a + c` passes. -/
theorem C135_evaluate_policy_partial (T : X → X) (dist : X → X → K) (tol : K) (htol : tol < 10) (a c : ℕ) (hc : 1 ≤ c)
    (v0 : X) (dr0 : Option X) (hopen : tol < (evaluatePolicy T dist tol (a + 1) v0 dr0).error) :
    ∃ v, (evaluatePolicy T dist tol (a + 1) v0 dr0).solution = some v ∧
      evaluatePolicy T dist tol (a + c) v0 dr0 = ⟨(evaluatePolicy T dist tol c v (some v)).solution,
        a + (evaluatePolicy T dist tol c v (some v)).iterations, tol, (evaluatePolicy T dist tol c v (some v)).error⟩ := by
  obtain ⟨d, rfl⟩ : ∃ d, c = d + 1 := ⟨c - 1, by omega⟩
  unfold evaluatePolicy at hopen ⊢
  obtain ⟨h1, h2⟩ := epLoop_open T dist tol a 0 10 v0 dr0 hopen htol
  refine ⟨T^[a] v0, h1, ?_⟩
  rw [(h2 d).1]
  have e1 : ∀ it err set, tol < err → epLoop T dist tol (d + 1) it err (T^[a] v0) set =
      epLoop T dist tol d (it + 1) (dist (T (T^[a] v0)) (T^[a] v0)) (T (T^[a] v0)) (some (T^[a] v0)) := by
    intro it err set he
    rw [epLoop, if_pos he]
  rw [e1 0 10 _ htol, e1 (0 + a)]
  · rw [epLoop_it T dist tol d (0 + a + 1), epLoop_it T dist tol d (0 + 1)]
    simp [Nat.add_assoc]
  · by_cases ha : a = 0
    · simpa [ha] using htol
    · rw [if_neg ha]; exact (h2 d).2 (by omega)

/-- **C135 fails for `evaluate_policy`.**  A run of one pass can be repeated for ever without getting anywhere: halving the
values, one pass and then one pass more returns the initial values, two passes do not. -/
theorem C135_evaluate_policy_fails :
    ∃ v, (evaluatePolicy (fun v : ℚ => v / 2) (fun a b => |a - b|) (1 / 10) 1 8 none).solution = some v ∧ v = 8 ∧
      (evaluatePolicy (fun v : ℚ => v / 2) (fun a b => |a - b|) (1 / 10) 1 v (some v)).solution = some 8 ∧
      (evaluatePolicy (fun v : ℚ => v / 2) (fun a b => |a - b|) (1 / 10) 2 8 none).solution = some 4 := by
  refine ⟨8, ?_, rfl, ?_, ?_⟩ <;> norm_num [evaluatePolicy, epLoop]

/-! ### Simulations and plans -/

section

variable {M S U : Type}

theorem simLoop_drop (g : M → S → U → M → S) (dr : M → S → U) (k : ℕ) : ∀ (mp : M) (s : S) (ms : List M) (mk : M)
    (p : S × U), (mp :: ms)[k]? = some mk → (simLoop g dr mp s ms)[k]? = some p →
    (simLoop g dr mp s ms).drop k = simLoop g dr mk p.1 (ms.drop k) := by
  induction k with
  | zero =>
    intro mp s ms mk p h1 h2
    cases ms with
    | nil => simp [simLoop] at h2
    | cons m r =>
      simp only [List.getElem?_cons_zero, Option.some.injEq] at h1
      simp only [simLoop, List.getElem?_cons_zero, Option.some.injEq] at h2
      subst h1 h2
      rfl
  | succ k ih =>
    intro mp s ms mk p h1 h2
    cases ms with
    | nil => simp [simLoop] at h2
    | cons m r =>
      simp only [List.getElem?_cons_succ] at h1
      simp only [simLoop, List.getElem?_cons_succ] at h2 ⊢
      exact ih _ _ _ _ _ h1 h2

/-- **C135, `simulate`** (partial).  A simulation started from the state of date `k` with the rest of the driving process gives
the rest of the simulation, provided the transition out of date `k` gives the same state with the exogenous value of
date `k - 1` as with the one of date `k`.  In particular for transitions that do not use the current exogenous value, and for
`k = 0`. -/
theorem C135_simulate_partial (g : M → S → U → M → S) (dr : M → S → U) (s0 : S) (ms : List M) (k : ℕ)
    (sim : List (S × U)) (h : simulateDriven g dr s0 ms.length ms = .ok sim) (p : S × U) (hp : sim[k]? = some p)
    (m0 m : M) (hm0 : ms[k - 1]? = some m0) (hm : ms[k]? = some m) (hg : g m0 p.1 p.2 m = g m p.1 p.2 m) :
    simulateDriven g dr p.1 (ms.drop k).length (ms.drop k) = .ok (sim.drop k) := by
  have hk : k < ms.length := (List.getElem?_eq_some_iff.1 hm).1
  obtain ⟨m1, r, rfl⟩ : ∃ m1 r, ms = m1 :: r := by
    cases ms with
    | nil => simp at hk
    | cons m1 r => exact ⟨m1, r, rfl⟩
  have hsim : sim = simLoop g dr m1 s0 (m1 :: r) := by
    simp only [simulateDriven, firstRows, bind, Except.bind, pure, Except.pure] at h
    simpa using h.symm
  subst hsim
  have hmk : (m1 :: m1 :: r)[k]? = some m0 := by
    cases k with
    | zero => simpa using hm0
    | succ k => simpa using hm0
  rw [simLoop_drop g dr k m1 s0 (m1 :: r) m0 p hmk hp]
  have hd : (m1 :: r).drop k = m :: (m1 :: r).drop (k + 1) := by
    rw [List.drop_eq_getElem_cons hk]
    congr 1
    exact (List.getElem?_eq_some_iff.1 hm).2
  have hx : p.2 = dr m p.1 := by
    have hh := simLoop_drop g dr k m1 s0 (m1 :: r) m0 p hmk hp
    have h0 : ((simLoop g dr m1 s0 (m1 :: r)).drop k)[0]? = some p := by rw [List.getElem?_drop]; simpa using hp
    rw [hh, hd] at h0
    simp only [simLoop, List.getElem?_cons_zero, Option.some.injEq] at h0
    rw [← h0]
  rw [hd]
  simp only [simulateDriven, firstRows, bind, Except.bind, pure, Except.pure, List.length_cons]
  simp [simLoop, ← hx, hg, List.take_of_length_le]

/-- **C135 fails for `simulate`** when the transition uses the current exogenous value: the first transition of the
second simulation uses the value of date `k` twice.  Here `s' = m`, the values are `0, 1, 2, 3`, and the simulation restarted
at date 1 continues with `1` where the first one has `0`. -/
theorem C135_simulate_fails :
    ∃ (g : ℚ → ℚ → ℚ → ℚ → ℚ) (dr : ℚ → ℚ → ℚ) (ms : List ℚ) (sim : List (ℚ × ℚ)) (p : ℚ × ℚ) (sim' : List (ℚ × ℚ)),
      simulateDriven g dr 5 ms.length ms = .ok sim ∧ sim[1]? = some p ∧
      simulateDriven g dr p.1 (ms.drop 1).length (ms.drop 1) = .ok sim' ∧ sim' ≠ sim.drop 1 := by
  refine ⟨fun m _ _ _ => m, fun _ _ => 0, [0, 1, 2, 3], [(5, 0), (0, 0), (0, 0), (1, 0)], (0, 0),
    [(0, 0), (1, 0), (1, 0)], rfl, rfl, rfl, ?_⟩
  intro h
  simp at h

/-- **C135, perfect foresight.**  From any date on, a perfect-foresight path is a perfect-foresight path for the rest of the
horizon: the stacked residual of the rest, with the state reached as initial state and the rest of the shocks, is zero. -/
theorem C135_perfect_foresight {E Sv Xv : Type} (g : (E → K) → (Sv → K) → (Xv → K) → (E → K) → Sv → K)
    (f : (E → K) → (Sv → K) → (Xv → K) → (E → K) → (Sv → K) → (Xv → K) → Xv → K)
    (N k : ℕ) (hk : k + 2 ≤ N) (path : ℕ → Sv ⊕ Xv → K) (start : Sv → K) (m : ℕ → E → K) (res : ℕ → Sv ⊕ Xv → K)
    (h : detResidual g f N path start m = .ok res) (hz : ∀ i c, i < N → res i c = 0) :
    ∃ res', detResidual g f (N - k) (fun t => path (k + t)) (fun a => path k (.inl a)) (fun t => m (k + t)) = .ok res' ∧
      ∀ i c, i < N - k → res' i c = 0 := by
  obtain ⟨r1, e1, h1⟩ := C38_residual_zero_iff g f N (by omega) path start m
  rw [h] at e1
  cases e1
  obtain ⟨-, p2, p3, p4⟩ := h1.1 hz
  obtain ⟨r2, e2, h2⟩ := C38_residual_zero_iff g f (N - k) (by omega) (fun t => path (k + t))
    (fun a => path k (.inl a)) (fun t => m (k + t))
  refine ⟨r2, e2, h2.2 ⟨?_, ?_, ?_, ?_⟩⟩
  · simp
  · intro t ht; exact p2 (k + t) (by omega)
  · intro t ht; exact p3 (k + t) (by omega)
  · have e3 : k + (N - k - 1) = N - 1 := by omega
    have e4 : k + (N - k - 2) = N - 2 := by omega
    simp only [e3, e4]
    exact p4

end

/-- A first run of two passes that halves the distance to zero, from 8: the error is 2, above the tolerance. -/
example : ∃ r, timeIteration (fun v : ℚ => v / 2) (fun a b => |a - b|) (1 / 10) 2 8 = .ok r ∧ 1 / 10 < r.err := by
  refine ⟨⟨2, 2, false, 2⟩, ?_, by norm_num⟩
  norm_num [timeIteration, tiLoop]

/-- The same for the improved algorithm with one trial step. -/
example : ∃ r, improvedTimeIteration (fun v : ℚ => |v|) (fun v _ => v / 2) 1 (1 / 10) 2 8 = .ok r ∧ r.converged = false := by
  refine ⟨⟨2, 1, 4, false⟩, ?_, rfl⟩
  norm_num [improvedTimeIteration, itiLoop, itiSearch, backSteps, bind, Except.bind, pure, Except.pure]

end Dolo
