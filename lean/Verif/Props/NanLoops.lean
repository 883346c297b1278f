import Mathlib.Tactic.NormNum
import Mathlib.Logic.Function.Iterate
import Verif.Lemmas.NanLoops

/-!
# C134: what the solvers say when numbers are infinite or `nan`

All the solvers compare an error with a tolerance; comparisons with `nan` are false, and the maximum of an array that
contains `nan` is `nan`.
-/

set_option linter.unusedSectionVars false

namespace Dolo

/-! ### Specification -/

/-- All entries of the two arrays are numbers (neither infinite nor `nan`), and differ by less than the tolerance. -/
def WithinTol {n : ℕ} (tol : XF) (x y : FArr n) : Prop :=
  ∀ i, ∃ a b : ℝ, x i = .fin a ∧ y i = .fin b ∧ (XF.fin |a - b|).lt tol

/-- All entries are numbers smaller than the tolerance. -/
def SmallResidual {n : ℕ} (tol : XF) (v : FArr n) : Prop := ∀ i, ∃ a : ℝ, v i = .fin a ∧ (XF.fin |a|).lt tol

/-- Some entry is `nan`. -/
def HasNan {n : ℕ} (v : FArr n) : Prop := ∃ i, v i = .nan

theorem WithinTol.not_nan {n : ℕ} {tol : XF} {x y : FArr n} (h : WithinTol tol x y) : ¬ HasNan x ∧ ¬ HasNan y := by
  refine ⟨?_, ?_⟩ <;> rintro ⟨i, hi⟩ <;> obtain ⟨a, b, ha, hb, -⟩ := h i
  · rw [hi] at ha; cases ha
  · rw [hi] at hb; cases hb

theorem smallResidual_iff {n : ℕ} (tol : XF) (v : FArr n) : (absMaxF v).lt tol ↔ SmallResidual tol v := by
  rw [absMaxF_lt]
  exact forall_congr' fun i => XF.abs_lt _ _

/-! ### time_iteration -/

theorem tiLoopF_spec {n : ℕ} (update : FArr n → FArr n) (tol : XF) (k : ℕ) :
    ∀ (it : ℕ) (err : XF) (c0 : FArr n) (last : Option (FArr n)),
    ∃ j ≤ k, tiLoopF update tol k it err c0 last =
        (it + j, if j = 0 then err else distF (update^[j] c0) (update^[j - 1] c0),
          if j = 0 then last else some (update^[j] c0)) ∧
      (0 < j → err.gt tol) ∧ (j = 0 → 0 < k → ¬ err.gt tol) ∧
      (∀ i, 0 < i → i < j → (distF (update^[i] c0) (update^[i - 1] c0)).gt tol) := by
  induction k with
  | zero => intro it err c0 last; exact ⟨0, le_refl _, by simp [tiLoopF], by simp, by simp, by simp⟩
  | succ k ih =>
    intro it err c0 last
    by_cases h : err.gt tol
    · obtain ⟨j, hj, heq, h1, h2, h3⟩ := ih (it + 1) (distF (update c0) c0) (update c0) (some (update c0))
      refine ⟨j + 1, by omega, ?_, fun _ => h, by simp, ?_⟩
      · rw [tiLoopF, if_pos h]
        simp only [heq]
        rcases j with _ | j
        · simp
        · simp [Function.iterate_succ_apply, Nat.add_assoc, Nat.add_comm, Nat.add_left_comm]
      · intro i hi hij
        rcases i with _ | i
        · omega
        · rcases i with _ | i
          · simpa using h1 (by omega)
          · have := h3 (i + 1) (by omega) (by omega)
            simpa [Function.iterate_succ_apply] using this
    · exact ⟨0, by omega, by rw [tiLoopF, if_neg h]; simp, by simp, fun _ _ => h, by simp⟩

/-- **C134, `time_iteration`.**  The rule returned is the one obtained after the reported number of passes, and
`x_converged` is set exactly when the last two rules are made of numbers everywhere and differ everywhere by less than the
tolerance, whatever the model does. -/
theorem C134_time_iteration {n : ℕ} (update : FArr n → FArr n) (tol : XF) (maxit : ℕ) (x0 : FArr n)
    (r : TIResult (FArr n) XF) (h : timeIterationF update tol maxit x0 = .ok r) :
    0 < r.iterations ∧ r.iterations ≤ maxit ∧ r.controls = update^[r.iterations] x0 ∧
    (r.converged = true ↔ WithinTol tol (update^[r.iterations] x0) (update^[r.iterations - 1] x0)) := by
  classical
  obtain ⟨j, hj, heq, h1, h2, h3⟩ := tiLoopF_spec update tol maxit 0 (.fin 10) x0 none
  unfold timeIterationF at h
  rw [heq] at h
  rcases Nat.eq_zero_or_pos j with rfl | hpos
  · simp at h
  · have hne : j ≠ 0 := by omega
    simp only [hne, if_false, Nat.zero_add, Except.ok.injEq] at h
    subst h
    refine ⟨hpos, hj, rfl, ?_⟩
    simp only [decide_eq_true_eq]
    exact distF_lt _ _ _

/-- **C134 (the loop ends with `nan`).**  At the first rule that contains `nan` the loop ends, without convergence. -/
theorem C134_time_iteration_nan {n : ℕ} (update : FArr n → FArr n) (tol : XF) (maxit : ℕ) (x0 : FArr n)
    (r : TIResult (FArr n) XF) (h : timeIterationF update tol maxit x0 = .ok r) (k : ℕ) (hk : 0 < k)
    (hnan : HasNan (update^[k] x0)) :
    r.iterations ≤ k ∧ (r.iterations = k → r.converged = false ∧ HasNan r.controls) := by
  classical
  have hfin := C134_time_iteration update tol maxit x0 r h
  refine ⟨?_, ?_⟩
  · obtain ⟨j, hj, heq, h1, h2, h3⟩ := tiLoopF_spec update tol maxit 0 (.fin 10) x0 none
    have hjr : r.iterations = j := by
      unfold timeIterationF at h
      rw [heq] at h
      rcases Nat.eq_zero_or_pos j with rfl | hpos
      · simp at h
      · have hne : j ≠ 0 := by omega
        simp only [hne, if_false, Nat.zero_add, Except.ok.injEq] at h
        subst h
        rfl
    by_contra hlt
    have := h3 k hk (by omega)
    rw [distF_nan (hnan.imp fun i hi => .inl hi)] at this
    cases tol <;> exact this
  · intro hit
    obtain ⟨-, -, hc, hconv⟩ := hfin
    rw [hit] at hc hconv
    refine ⟨?_, by rw [hc]; exact hnan⟩
    cases hb : r.converged with
    | false => rfl
    | true => exact absurd hnan (hconv.1 hb).not_nan.1

/-- **C134 (the rule alone does not tell).**  Whatever the number of passes allowed, a model whose equations can not be
evaluated makes `time_iteration` return after one pass: there is no exception, and without `details` all that is returned
is a rule whose values are `nan`. -/
theorem C134_silent_fails (n maxit : ℕ) (hm : 0 < maxit) (x0 : FArr n) (tol : ℝ) (ht : tol < 10) :
    timeIterationF (fun _ _ => .nan) (.fin tol) maxit x0 = .ok ⟨fun _ => .nan, 1, false, .nan⟩ := by
  classical
  have hd : distF (fun _ => XF.nan) x0 = .nan := distF_nan ⟨0, .inl rfl⟩
  obtain ⟨m, rfl⟩ := Nat.exists_eq_succ_of_ne_zero (by omega : maxit ≠ 0)
  unfold timeIterationF
  rw [tiLoopF, if_pos (by simpa [XF.gt] using ht)]
  simp only [hd]
  have : tiLoopF (n := n) (fun _ _ => .nan) (.fin tol) m (0 + 1) .nan (fun _ => .nan) (some fun _ => .nan) =
      (1, .nan, some fun _ => .nan) := by
    cases m with
    | zero => rfl
    | succ m => rw [tiLoopF, if_neg (by simp [XF.gt])]
  rw [this]
  simp [XF.nan_lt]

/-! ### newton -/

variable {n : ℕ} {X J D : Type}

/-- **C134, `newton`** (and `ncpsolve`, which calls it).  Without warning, all residuals at the point returned are numbers
below the tolerance. -/
theorem C134_newton (P : NewtonF n X J D) (tol : XF) (maxit : ℕ) (x : X)
    (h : (newtonF P tol maxit x).warned = false) :
    SmallResidual tol (P.f (newtonF P tol maxit x).x).1 := by
  classical
  have key : ∀ k it x, (newtonLoopF P tol k it x).warned = false →
      SmallResidual tol (P.f (newtonLoopF P tol k it x).x).1 := by
    intro k
    induction k with
    | zero => intro it x h; simp [newtonLoopF] at h
    | succ k ih =>
      intro it x h
      rw [newtonLoopF] at h ⊢
      split at h
      · next hlt => rw [if_pos hlt]; exact (smallResidual_iff _ _).1 hlt
      · next hlt => rw [if_neg hlt]; exact ih _ _ h
  exact key _ _ _ h

theorem backSteps_first (better : ℕ → Bool) (k : ℕ) : ∀ b0 b, b0 ≤ b → b < b0 + k → better b = true →
    better (backSteps better k b0) = true := by
  induction k with
  | zero => intro b0 b h1 h2; omega
  | succ k ih =>
    intro b0 b h1 h2 hb
    rw [backSteps]
    by_cases h0 : better b0 = true
    · rw [if_pos h0]; exact h0
    · rw [if_neg h0]
      have : b ≠ b0 := by rintro rfl; exact h0 hb
      exact ih _ b (by omega) (by omega) hb

theorem backSteps_none (better : ℕ → Bool) (k : ℕ) : ∀ b0, (∀ b, better b = false) →
    backSteps better k b0 = b0 + k := by
  induction k with
  | zero => intro b0 _; rfl
  | succ k ih => intro b0 h; rw [backSteps, h, if_neg (by simp), ih _ h]; omega

theorem XF.lt_not_nan {a b : XF} (h : a.lt b) : a ≠ .nan ∧ b ≠ .nan :=
  ⟨fun e => XF.nan_lt b (e ▸ h), fun e => XF.lt_nan a (e ▸ h)⟩

/-- **C134 (trial points outside the domain).**  If the equations can not be evaluated (or are worse) at the full step but
a shorter one, within the first thirty halvings minus one, improves on the residual, then the point chosen improves on it:
none of its residuals is `nan`. -/
theorem C134_newton_backsteps (P : NewtonF n X J D) (x : X) (b : ℕ) (hb : b < 29)
    (h : (absMaxF (P.f (P.trial x (P.solve (P.f x).2 (P.f x).1) b)).1).lt (absMaxF (P.f x).1)) :
    (absMaxF (P.f (P.next x)).1).lt (absMaxF (P.f x).1) ∧ ¬ HasNan (P.f (P.next x)).1 := by
  classical
  have := backSteps_first (fun b => decide ((absMaxF (P.f (P.trial x (P.solve (P.f x).2 (P.f x).1) b)).1).lt
    (absMaxF (P.f x).1))) 29 0 b (by omega) (by omega) (by simpa using h)
  have h' : (absMaxF (P.f (P.next x)).1).lt (absMaxF (P.f x).1) := by
    unfold NewtonF.next
    simpa only [decide_eq_true_eq] using this
  exact ⟨h', fun hn => (XF.lt_not_nan h').1 ((absMaxF_nan _).2 hn)⟩

/-- **C134 (starting outside the domain).**  From a point where an equation can not be evaluated no trial point counts as an
improvement, not even a solution: the shortest step is taken. -/
theorem C134_newton_nan_start_fails (P : NewtonF n X J D) (x : X) (h : HasNan (P.f x).1) :
    P.next x = P.trial x (P.solve (P.f x).2 (P.f x).1) 29 := by
  classical
  unfold NewtonF.next
  rw [(absMaxF_nan _).2 h]
  simp only
  rw [backSteps_none _ _ _ (fun b => by simp [XF.lt_nan])]

/-! ### improved_time_iteration -/

theorem itiLoopF_spec (res : X → FArr n) (trial : X → ℕ → X) (bsteps : ℕ) (tol : XF) (k : ℕ) :
    ∀ it x last, (∀ p ∈ last, ¬ XF.lt p.2 tol) → ∀ y it' e,
      itiLoopF res trial bsteps tol k it x last = (y, some (it', e)) → e.lt tol → SmallResidual tol (res y) := by
  classical
  induction k with
  | zero =>
    intro it x last hl y it' e h hlt
    simp only [itiLoopF, Prod.mk.injEq] at h
    exact absurd hlt (hl (it', e) (by simp [h.2]))
  | succ k ih =>
    intro it x last hl y it' e h hlt
    rw [itiLoopF] at h
    split at h
    · next hs =>
      simp only [Prod.mk.injEq] at h
      rw [← h.1]
      exact (smallResidual_iff _ _).1 hs
    · next hs =>
      refine ih _ _ _ ?_ _ _ _ h hlt
      rintro p hp
      simp only [Option.mem_def, Option.some.injEq] at hp
      subst hp
      exact hs

/-- **C134, `improved_time_iteration`.**  With `x_converged` set, all residuals at the rule returned are numbers below the
tolerance. -/
theorem C134_improved (res : X → FArr n) (trial : X → ℕ → X) (bsteps : ℕ) (tol : XF) (maxit : ℕ) (x0 : X)
    (r : ITIResult X XF) (h : improvedTimeIterationF res trial bsteps tol maxit x0 = .ok r)
    (hc : r.converged = true) : SmallResidual tol (res r.x) := by
  classical
  unfold improvedTimeIterationF at h
  split at h
  · next x it e heq =>
    simp only [Except.ok.injEq] at h
    subst h
    exact itiLoopF_spec res trial bsteps tol maxit 0 x0 none (by simp) _ _ _ heq (by simpa using hc)
  · nomatch h

/-- **C134 (no early end).**  Unlike `time_iteration`, the improved algorithm goes on with rules that can not be evaluated
until the passes are used up. -/
theorem C134_improved_nan (res : X → FArr n) (trial : X → ℕ → X) (bsteps : ℕ) (tol : XF) (maxit : ℕ)
    (hm : 0 < maxit) (x0 : X) (hnan : ∀ x, HasNan (res x)) :
    ∃ x, improvedTimeIterationF res trial bsteps tol maxit x0 = .ok ⟨x, maxit - 1, .nan, false⟩ := by
  classical
  have key : ∀ k it x last, ∃ y, itiLoopF res trial bsteps tol (k + 1) it x last = (y, some (it + k, .nan)) := by
    intro k
    induction k with
    | zero =>
      intro it x last
      rw [itiLoopF]
      simp only [(absMaxF_nan _).2 (hnan x), if_neg (XF.nan_lt tol)]
      exact ⟨_, rfl⟩
    | succ k ih =>
      intro it x last
      rw [itiLoopF]
      simp only [(absMaxF_nan _).2 (hnan x), if_neg (XF.nan_lt tol)]
      obtain ⟨y, hy⟩ := ih (it + 1) (trial x (backSteps (fun b => decide ((absMaxF (res (trial x b))).lt .nan)) bsteps 0))
        (some (it, .nan))
      exact ⟨y, by rw [hy, show it + 1 + k = it + (k + 1) by omega]⟩
  obtain ⟨m, rfl⟩ := Nat.exists_eq_succ_of_ne_zero (by omega : maxit ≠ 0)
  obtain ⟨y, hy⟩ := key m 0 x0 none
  refine ⟨y, ?_⟩
  unfold improvedTimeIterationF
  rw [hy]
  simp [XF.nan_lt]

/-! ### evaluate_policy and value_iteration -/

theorem epLoopF_spec (T : FArr n → FArr n) (tol : XF) (k : ℕ) :
    ∀ (it : ℕ) (err : XF) (c0 : FArr n) (last : Option (FArr n)),
    ∃ j ≤ k, epLoopF T tol k it err c0 last =
        ⟨if j = 0 then last else some (T^[j - 1] c0), it + j, tol,
          if j = 0 then err else distF (T^[j] c0) (T^[j - 1] c0)⟩ := by
  classical
  induction k with
  | zero => intro it err c0 last; exact ⟨0, le_refl _, by simp [epLoopF]⟩
  | succ k ih =>
    intro it err c0 last
    by_cases h : err.gt tol
    · obtain ⟨j, hj, heq⟩ := ih (it + 1) (distF (T c0) c0) (T c0) (some c0)
      refine ⟨j + 1, by omega, ?_⟩
      rw [epLoopF, if_pos h]
      simp only [heq]
      rcases j with _ | j
      · simp
      · simp [Function.iterate_succ_apply, Nat.add_assoc, Nat.add_comm, Nat.add_left_comm]
    · exact ⟨0, by omega, by rw [epLoopF, if_neg h]; simp⟩

/-- **C134, `evaluate_policy`.**  The reported error is below the tolerance exactly when the last two sets of values are
numbers that differ by less than it; the solution holds the first of them. -/
theorem C134_evaluate_policy (T : FArr n → FArr n) (tol : XF) (maxit : ℕ) (v0 : FArr n) (dr0 : Option (FArr n))
    (r : EvalResult (FArr n) XF) (h : evaluatePolicyF T tol maxit v0 dr0 = r) (hit : 0 < r.iterations) :
    r.solution = some (T^[r.iterations - 1] v0) ∧
    (r.error.lt tol ↔ WithinTol tol (T^[r.iterations] v0) (T^[r.iterations - 1] v0)) := by
  obtain ⟨j, hj, heq⟩ := epLoopF_spec T tol maxit 0 (.fin 10) v0 dr0
  unfold evaluatePolicyF at h
  rw [heq] at h
  subst h
  have hne : j ≠ 0 := by rintro rfl; simp at hit
  simp only [hne, if_false, Nat.zero_add]
  exact ⟨trivial, distF_lt _ _ _⟩

/-- **C134 (an early end is not convergence).**  Values that can not be evaluated end `evaluate_policy` after one pass, with
the error `nan` and no flag: fewer passes than allowed does not mean that the values settled. -/
theorem C134_evaluate_fails (maxit : ℕ) (hm : 0 < maxit) (v0 : FArr n) (dr0 : Option (FArr n)) (tol : ℝ) (ht : tol < 10) :
    evaluatePolicyF (fun _ _ => .nan) (.fin tol) maxit v0 dr0 = ⟨some v0, 1, .fin tol, .nan⟩ := by
  classical
  have hd : distF (fun _ => XF.nan) v0 = .nan := distF_nan ⟨0, .inl rfl⟩
  obtain ⟨m, rfl⟩ := Nat.exists_eq_succ_of_ne_zero (by omega : maxit ≠ 0)
  unfold evaluatePolicyF
  rw [epLoopF, if_pos (by simpa [XF.gt] using ht), hd]
  cases m with
  | zero => rfl
  | succ m => rw [epLoopF, if_neg (by simp [XF.gt])]

theorem viLoopF_spec {k : ℕ} (evaluate : ℕ → FArr n → FArr k → FArr k)
    (improve : FArr n → FArr k → FArr n × FArr k) (tol tol_x : XF) (m : ℕ) :
    ∀ st : ViState n k, viLoopF evaluate improve tol tol_x m st = st ∨
      ∃ (x : FArr n) (v : FArr k), (viLoopF evaluate improve tol tol_x m st).controls = (improve x v).1 ∧
        (viLoopF evaluate improve tol tol_x m st).values = (improve x v).2 ∧
        (viLoopF evaluate improve tol tol_x m st).err_x = distF (improve x v).1 x ∧
        (viLoopF evaluate improve tol tol_x m st).err_v = distF (improve x v).2 v := by
  classical
  induction m with
  | zero => intro st; exact .inl rfl
  | succ m ih =>
    intro st
    rw [viLoopF]
    split
    · right
      simp only
      rcases ih ⟨(improve st.controls (evaluate (st.it + 1) st.controls st.values)).1,
        (improve st.controls (evaluate (st.it + 1) st.controls st.values)).2,
        distF (improve st.controls (evaluate (st.it + 1) st.controls st.values)).1 st.controls,
        distF (improve st.controls (evaluate (st.it + 1) st.controls st.values)).2
          (evaluate (st.it + 1) st.controls st.values), st.it + 1⟩ with h | h
      · rw [h]; exact ⟨_, _, rfl, rfl, rfl, rfl⟩
      · exact h
    · exact .inl rfl

/-- **C134, `value_iteration`.**  With `x_converged` the last two tables of controls are numbers within `1e-5`, with
`v_converged` the values are numbers within `1e-7` of those they were improved from. -/
theorem C134_value_iteration {k : ℕ} (evaluate : ℕ → FArr n → FArr k → FArr k)
    (improve : FArr n → FArr k → FArr n × FArr k) (tol : XF) (maxit : ℕ) (x0 : FArr n) (v0 : FArr k)
    (r : VIResult (FArr n) (FArr k) XF) (h : valueIterationF evaluate improve tol maxit x0 v0 = .ok r) :
    ∃ (x : FArr n) (v : FArr k), improve x v = (r.controls, r.values) ∧
      (r.x_converged = true ↔ WithinTol (.fin (1 / 10 ^ 5)) r.controls x) ∧
      (r.v_converged = true ↔ WithinTol (.fin (1 / 10 ^ 7)) r.values v) := by
  classical
  unfold valueIterationF at h
  simp only at h
  split at h
  · nomatch h
  · next hit =>
    simp only [Except.ok.injEq] at h
    rcases viLoopF_spec evaluate improve tol (.fin (1 / 10 ^ 5)) maxit ⟨x0, v0, .fin 100, .fin 100, 0⟩ with h0 |
      ⟨x, v, h1, h2, h3, h4⟩
    · rw [h0] at hit; simp at hit
    · refine ⟨x, v, ?_, ?_, ?_⟩
      · rw [← h]; simp only [h1, h2]
      · rw [← h]; simp only [decide_eq_true_eq, h3, h1]; exact distF_lt _ _ _
      · rw [← h]; simp only [decide_eq_true_eq, h4, h2]; exact distF_lt _ _ _

/-! ### egm -/

theorem egmLoopF_spec (step : ℕ → FArr n → FArr n → FArr n × FArr n) (tol : XF) (ht : ¬ (XF.fin 1).lt tol) (k : ℕ) :
    ∀ it xa0 sa0 prev, (∀ e ∈ prev, ¬ XF.lt e tol) → ∀ o, egmLoopF step tol k it xa0 sa0 prev = .ok o →
      o.η.lt tol → 1 < o.it ∧ WithinTol tol (step o.it o.xa0 o.sa0).1 o.xa0 ∧
        WithinTol tol (step o.it o.xa0 o.sa0).2 o.sa0 := by
  classical
  induction k with
  | zero =>
    intro it xa0 sa0 prev hp o h hlt
    cases prev with
    | none => nomatch h
    | some η =>
      simp only [egmLoopF, Except.ok.injEq] at h
      subst h
      exact absurd hlt (hp _ rfl)
  | succ k ih =>
    intro it xa0 sa0 prev hp o h hlt
    rw [egmLoopF] at h
    generalize hη : (if it > 1 then (distF (step it xa0 sa0).1 xa0).add (distF (step it xa0 sa0).2 sa0) else .fin 1) = η
      at h
    by_cases hs : η.lt tol
    · rw [if_pos hs, Except.ok.injEq] at h
      subst h
      rw [← hη] at hs
      by_cases hit : it > 1
      · rw [if_pos hit] at hs
        have := absMaxF_add_lt _ _ _ hs
        exact ⟨hit, (distF_lt _ _ _).1 this.1, (distF_lt _ _ _).1 this.2⟩
      · rw [if_neg hit] at hs
        exact absurd hs ht
    · rw [if_neg hs] at h
      refine ih _ _ _ _ ?_ o h hlt
      rintro e he
      simp only [Option.mem_def, Option.some.injEq] at he
      subst he
      exact hs

/-- **C134, `egm`.**  With a tolerance of at most one, `a_converged` means that the arrays behind the rule returned and
those computed from them are numbers everywhere and differ by less than the tolerance. -/
theorem C134_egm (step : ℕ → FArr n → FArr n → FArr n × FArr n) (tol : XF) (ht : ¬ (XF.fin 1).lt tol) (maxit : ℕ)
    (o : EgmOutF n) (h : egmF step tol maxit = .ok (o, true)) :
    1 < o.it ∧ WithinTol tol (step o.it o.xa0 o.sa0).1 o.xa0 ∧ WithinTol tol (step o.it o.xa0 o.sa0).2 o.sa0 := by
  classical
  unfold egmF at h
  cases hl : egmLoopF step tol maxit 0 (fun _ => .fin 0) (fun _ => .fin 0) none with
  | error e => rw [hl] at h; nomatch h
  | ok o' =>
    rw [hl] at h
    simp only [bind, Except.bind, pure, Except.pure, Except.ok.injEq, Prod.mk.injEq, decide_eq_true_eq] at h
    obtain ⟨rfl, h⟩ := h
    exact egmLoopF_spec step tol ht maxit 0 _ _ none (by simp) _ hl h

/-- **C134 (a large tolerance).**  With a tolerance above one, `egm` reports convergence after its first pass whatever came
out of it, `nan` included. -/
theorem C134_egm_large_tolerance_fails (step : ℕ → FArr n → FArr n → FArr n × FArr n) (tol : ℝ) (ht : 1 < tol)
    (maxit : ℕ) (hm : 0 < maxit) :
    egmF step (.fin tol) maxit = .ok (⟨0, .fin 1, fun _ => .fin 0, fun _ => .fin 0⟩, true) := by
  classical
  obtain ⟨m, rfl⟩ := Nat.exists_eq_succ_of_ne_zero (by omega : maxit ≠ 0)
  have h1 : (XF.fin 1).lt (.fin tol) := by simpa [XF.lt, XF.gt] using ht
  unfold egmF
  rw [egmLoopF]
  simp [h1, bind, Except.bind, pure, Except.pure]

/-! ### Cases -/

/-- A rule that settles at once: one number, kept. -/
example : ∃ r, timeIterationF (n := 0) (fun x => x) (.fin (1 / 2)) 5 (fun _ => .fin 3) = .ok r ∧
    r.converged = true ∧ r.iterations = 1 := by
  classical
  have hd : distF (fun _ : Fin 1 => XF.fin 3) (fun _ => .fin 3) = .fin 0 := by
    simp [distF, absMaxF, npMax, XF.sub, XF.abs]
  refine ⟨⟨fun _ => .fin 3, 1, true, .fin 0⟩, ?_, rfl, rfl⟩
  unfold timeIterationF
  rw [tiLoopF, if_pos (by norm_num [XF.gt])]
  simp only [hd]
  rw [tiLoopF, if_neg (by norm_num [XF.gt])]
  simp [XF.lt, XF.gt]

/-- An infinite control is not convergence either: `inf - inf` is `nan`. -/
example : ∃ r, timeIterationF (n := 0) (fun x => x) (.fin (1 / 2)) 5 (fun _ => .pinf) = .ok r ∧
    r.converged = false ∧ r.iterations = 1 := by
  classical
  have hd : distF (fun _ : Fin 1 => XF.pinf) (fun _ => .pinf) = .nan := by
    simp [distF, absMaxF, npMax, XF.sub, XF.abs]
  refine ⟨⟨fun _ => .pinf, 1, false, .nan⟩, ?_, rfl, rfl⟩
  unfold timeIterationF
  rw [tiLoopF, if_pos (by norm_num [XF.gt])]
  simp only [hd]
  rw [tiLoopF, if_neg (by norm_num [XF.gt])]
  simp [XF.nan_lt]

/-- `newton` at a solution. -/
example : (newtonF (n := 0) (X := ℝ) (J := Unit) (D := ℝ) ⟨fun x => (fun _ => .fin x, ()), fun _ _ => 0, fun x _ _ => x⟩
    (.fin 1) 3 0).warned = false := by
  classical
  unfold newtonF
  rw [newtonLoopF, if_pos (by simp [absMaxF, npMax, XF.abs, XF.lt, XF.gt])]

end Dolo
