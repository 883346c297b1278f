import Mathlib.Tactic.FinCases
import Verif.Props.NanLoops
import Verif.Lemmas.NcpNan
import Verif.Lemmas.NcpLocal
import Verif.Lemmas.PFStack

/-!
# C153: derivatives of complementarity problems at the points where a bound is just reached

`ncpsolve` and `improved_time_iteration` replace an equation under bounds by a function whose derivative does not exist
where the bound is reached and the equation holds as well.  The code divides zero by zero there.
-/

set_option linter.unusedSectionVars false

namespace Dolo

/-! ### Specification -/

/-- A control `x` under the bounds `lb` and `ub`, with the residual `r` of its equation: the control is at a bound and its
equation holds, or both bounds are equal to the control and the residual is not negative. -/
def AtKink (lb ub : Option ℝ) (x r : ℝ) : Prop :=
  ((lb = some x ∨ ub = some x) ∧ r = 0) ∨ (lb = some x ∧ ub = some x ∧ 0 ≤ r)

/-- Row `i` of a matrix has `nan` on the diagonal and otherwise entries that are zero or `nan`. -/
def NanRow {ι : Type} (J : ι → ι → XF) (i : ι) : Prop := J i i = .nan ∧ ∀ j, J i j = .nan ∨ J i j = .fin 0

/-- What is assumed of `numpy.linalg.solve` and `scipy.sparse.linalg.spsolve` when the entries of an equation are `nan`: one
of the unknowns that occur in the equation comes out as `nan`. -/
def SpreadsNan {ι : Type} (solve : (ι → ι → XF) → (ι → XF) → ι → XF) : Prop :=
  ∀ J v i, NanRow J i → ∃ j, J i j = .nan ∧ solve J v j = .nan

/-! ### The derivatives -/

theorem zeroOverZero_iff (a b : Option ℝ) (hab : ∀ l ∈ a, ∀ u ∈ b, l ≤ u) (x r : ℝ) :
    ZeroOverZero x (-r) a b ↔ AtKink (ncpLower a) (ncpUpper b) x r := by
  unfold ZeroOverZero AtKink
  rw [neg_eq_zero]
  cases ha : ncpLower a with
  | none =>
    simp only [reduceCtorEq, and_false, false_or, false_and, or_false, ncpPval, ha, neg_eq_zero]
    exact and_comm
  | some l =>
    by_cases hb : ncpUpper b = some x
    · have hlx : l ≤ x := hab l (by rw [ncpLower_some ha]; rfl) x (by rw [ncpUpper_some hb]; rfl)
      simp only [hb, and_true, or_true, true_and, ncpPval, ha]
      constructor
      · rintro (⟨h, -⟩ | h)
        · exact .inl h
        · have hs : √((-r) ^ 2 + (l - x) ^ 2) = r - (l - x) := by linarith
          have h0 : 0 ≤ r - (l - x) := hs ▸ Real.sqrt_nonneg _
          have h1 : (-r) ^ 2 + (l - x) ^ 2 = (r - (l - x)) ^ 2 := by
            rw [← hs, Real.sq_sqrt (by positivity)]
          have h2 : r * (l - x) = 0 := by nlinarith
          rcases mul_eq_zero.1 h2 with h2 | h2
          · exact .inl h2
          · right
            refine ⟨by rw [sub_eq_zero.1 h2], ?_⟩
            linarith
      · rintro (h | ⟨h, hr⟩)
        · right
          rw [h]
          have : √((-(0 : ℝ)) ^ 2 + (l - x) ^ 2) = -(l - x) := by
            rw [show (-(0 : ℝ)) ^ 2 + (l - x) ^ 2 = (-(l - x)) ^ 2 by ring, Real.sqrt_sq (by linarith)]
          rw [this]
          ring
        · right
          obtain rfl : l = x := by simpa using h
          have : √((-r) ^ 2 + (l - l) ^ 2) = r := by
            rw [show (-r) ^ 2 + (l - l) ^ 2 = r ^ 2 by ring, Real.sqrt_sq hr]
          rw [this]
          ring
    · simp only [hb, and_false, or_false, false_and]
      exact and_comm

theorem atKink_solves {a b : Option ℝ} (hab : ∀ l ∈ a, ∀ u ∈ b, l ≤ u) {x r : ℝ}
    (h : AtKink (ncpLower a) (ncpUpper b) x r) : ncpFxnew x (ncpPval x (-r) a) b = 0 := by
  have hz := (zeroOverZero_iff a b hab x r).2 h
  rcases hz with ⟨h0, h1⟩ | ⟨h0, h1⟩
  · have hp : ncpPval x (-r) a = 0 := by simp [ncpPval, h1, h0]
    rw [hp]
    cases hb : ncpUpper b with
    | none => simp [ncpFxnew, hb]
    | some u =>
      have hxu : x ≤ u := hab x (by rw [ncpLower_some h1]; rfl) u (by rw [ncpUpper_some hb]; rfl)
      simp only [ncpFxnew, hb]
      rw [show (0 : ℝ) ^ 2 + (u - x) ^ 2 = (u - x) ^ 2 by ring, Real.sqrt_sq (by linarith)]
      ring
  · rw [h0]
    simp [ncpFxnew, h1]

/-- **C153, `ncpsolve`.**  At numbers, the smoothed residual is the one of the model in real numbers; its derivatives are as
well, except where the control is at a bound and its equation holds (or is at both bounds): there, although the condition is
satisfied (the smoothed residual is zero), both factors are `nan`.  (`r` is the residual in the sign convention of the
model; bounds beyond `1e20` count as absent.) -/
theorem C153_ncpsolve (lb ub : Option ℝ) (hb : ∀ l ∈ lb, ∀ u ∈ ub, l ≤ u) (x r : ℝ) :
    (smoothF (.fin x) (lowerXF lb) (upperXF ub) (.fin (-r))).fxnew = .fin (ncpFxnew x (ncpPval x (-r) lb) ub) ∧
    (¬ AtKink (ncpLower lb) (ncpUpper ub) x r →
      (smoothF (.fin x) (lowerXF lb) (upperXF ub) (.fin (-r))).ff = .fin (ncpFf lb ub x r) ∧
      (smoothF (.fin x) (lowerXF lb) (upperXF ub) (.fin (-r))).xx = .fin (ncpXx lb ub x r)) ∧
    (AtKink (ncpLower lb) (ncpUpper ub) x r →
      (smoothF (.fin x) (lowerXF lb) (upperXF ub) (.fin (-r))).fxnew = .fin 0 ∧
      (smoothF (.fin x) (lowerXF lb) (upperXF ub) (.fin (-r))).ff = .nan ∧
      (smoothF (.fin x) (lowerXF lb) (upperXF ub) (.fin (-r))).xx = .nan) := by
  classical
  rw [smoothF_fin]
  refine ⟨rfl, fun h => ?_, fun h => ?_⟩
  · have hz := mt (zeroOverZero_iff lb ub hb x r).1 h
    simp only [if_neg hz]
    exact ⟨rfl, rfl⟩
  · have hz := (zeroOverZero_iff lb ub hb x r).2 h
    simp only [if_pos hz, atKink_solves hb h, and_self]

/-- A control at zero, its lower bound, with an equation that holds. -/
example : AtKink (ncpLower (some 0)) (ncpUpper none) 0 0 ∧ ¬ AtKink (ncpLower (some 0)) (ncpUpper none) 0 1 ∧
    AtKink (ncpLower (some 0)) (ncpUpper (some 0)) 0 1 := by
  have h : ncpLower (some 0) = some (0 : ℝ) := by
    unfold ncpLower
    rw [Option.filter_eq_some_iff]
    simp
  have h' : ncpUpper (some 0) = some (0 : ℝ) := by
    unfold ncpUpper
    rw [Option.filter_eq_some_iff]
    simp
  rw [h, h']
  refine ⟨.inl ⟨.inl rfl, rfl⟩, ?_, .inr ⟨rfl, rfl, by norm_num⟩⟩
  rintro (⟨-, h⟩ | ⟨-, h, -⟩)
  · norm_num at h
  · simp [ncpUpper] at h

/-- **C153, `improved_time_iteration`.**  The same for the derivatives computed there: they are `nan` exactly where the
distance to the bound and the residual are both zero. -/
theorem C153_improved (res : ℝ) (dx : Option ℝ) :
    (itiSmoothF (.fin res) (upperXF dx)).1 = .fin (itiH res dx) ∧
    (¬ (res = 0 ∧ dx = some 0) → (itiSmoothF (.fin res) (upperXF dx)).2.1 = .fin (itiPhiA res dx) ∧
      (itiSmoothF (.fin res) (upperXF dx)).2.2 = .fin (itiPhiB res dx)) ∧
    (res = 0 ∧ dx = some 0 → (itiSmoothF (.fin res) (upperXF dx)).1 = .fin 0 ∧
      (itiSmoothF (.fin res) (upperXF dx)).2.1 = .nan ∧ (itiSmoothF (.fin res) (upperXF dx)).2.2 = .nan) := by
  classical
  cases dx with
  | none =>
    have h : (upperXF none).gt (.fin 100000) := trivial
    have h' : dinf none := by simp [dinf]
    unfold itiSmoothF itiH itiPhiA itiPhiB
    simp only [if_pos h, if_pos h', reduceCtorEq, and_false, not_false_eq_true, true_and, and_self, forall_const,
      false_imp_iff]
  | some d =>
    by_cases h : 100000 < d
    · have h1 : (upperXF (some d)).gt (.fin 100000) := h
      have h' : dinf (some d) := by simpa [dinf] using h
      have hd : some d ≠ some 0 := by
        intro e
        have : d = 0 := by simpa using e
        rw [this] at h
        norm_num at h
      unfold itiSmoothF itiH itiPhiA itiPhiB
      simp only [if_pos h1, if_pos h', hd, and_false, not_false_eq_true, true_and, and_self, forall_const,
        false_imp_iff]
    · have h1 : ¬ XF.gt (.fin d) (.fin 100000) := h
      have h' : ¬ dinf (some d) := by simpa [dinf] using h
      unfold itiSmoothF itiH itiPhiA itiPhiB
      simp only [upperXF, if_neg h1, if_neg h', hypot_fin, div_hypot_left, div_hypot_right, Option.some.injEq]
      refine ⟨by simp [XF.add, XF.sub], fun hn => ?_, fun hp => ?_⟩
      · simp only [if_neg hn, XF.sub, and_self]
      · obtain ⟨rfl, rfl⟩ := hp
        simp [XF.add, XF.sub]

/-! ### newton -/

section newton

variable {ι : Type} [DecidableEq ι] {n : ℕ}

/-- The row of the Jacobian handed to `newton` that belongs to such a point. -/
theorem kink_row (f : (ι → XF) → (ι → XF) × (ι → ι → XF)) (lb ub : ι → Option ℝ) (jactype : JacType)
    (hj : jactype ≠ .full) (hb : ∀ i, ∀ l ∈ lb i, ∀ u ∈ ub i, l ≤ u) (x : ι → ℝ) (i : ι) (r : ℝ)
    (hr : (f fun k => .fin (x k)).1 i = .fin r) (hk : AtKink (ncpLower (lb i)) (ncpUpper (ub i)) (x i) r) :
    NanRow (fcmpF f (fun k => lowerXF (lb k)) (fun k => upperXF (ub k)) jactype fun k => .fin (x k)).2 i ∧
    ∀ j, (fcmpF f (fun k => lowerXF (lb k)) (fun k => upperXF (ub k)) jactype fun k => .fin (x k)).2 i j = .nan →
      j = i ∨ jactype = .serial ∨ (f fun k => .fin (x k)).2 i j ≠ .fin 0 := by
  classical
  obtain ⟨-, hff, hxx⟩ := (C153_ncpsolve (lb i) (ub i) (hb i) (x i) r).2.2 hk
  have hneg : ∀ v : XF, v.neg = .fin 0 ↔ v = .fin 0 := by
    intro v
    cases v <;> simp [XF.neg]
  unfold fcmpF NanRow
  cases jactype with
  | full => exact absurd rfl hj
  | serial =>
    simp only [smoothJac, hr, XF.neg, hff, XF.nan_mul, XF.nan_sub]
    exact ⟨⟨trivial, fun _ => .inl trivial⟩, fun _ _ => .inr (.inl trivial)⟩
  | sparse =>
    simp only [smoothJac, hr, hneg]
    have hff' : (smoothF (.fin (x i)) (lowerXF (lb i)) (upperXF (ub i)) (XF.neg (.fin r))).ff = .nan := hff
    have hxx' : (smoothF (.fin (x i)) (lowerXF (lb i)) (upperXF (ub i)) (XF.neg (.fin r))).xx = .nan := hxx
    simp only [hff', hxx', XF.nan_mul, XF.sub_nan_right, if_true, true_and]
    refine ⟨fun j => ?_, fun j hjn => ?_⟩
    · by_cases h1 : i = j
      · rw [if_pos h1]; exact .inl rfl
      · rw [if_neg h1]
        by_cases h2 : (f fun k => .fin (x k)).2 i j = .fin 0
        · rw [if_pos h2]; exact .inr rfl
        · rw [if_neg h2]; exact .inl rfl
    · by_cases h1 : i = j
      · exact .inl h1.symm
      · rw [if_neg h1] at hjn
        by_cases h2 : (f fun k => .fin (x k)).2 i j = .fin 0
        · rw [if_pos h2] at hjn; cases hjn
        · exact .inr (.inr h2)

/-- From a point with a `nan` at an unknown that makes some residual `nan`, `newton` goes on to the last iteration and keeps
the `nan`. -/
theorem newton_stays_nan (order : Fin (n + 1) ≃ ι) (f : (ι → XF) → (ι → XF) × (ι → ι → XF)) (lb ub : ι → Option ℝ)
    (jactype : JacType) (hj : jactype ≠ .full) (solve : (ι → ι → XF) → (ι → XF) → ι → XF) (tol : XF) (j : ι)
    (hprop : (ncpLower (lb j) ≠ none ∨ ncpUpper (ub j) ≠ none) ∨ ∀ z, z j = .nan → ∃ k, (f z).1 k = .nan) (k : ℕ) :
    ∀ it (z : ι → XF), z j = .nan →
      (newtonLoopF (ncpProblemF order f (fun i => lowerXF (lb i)) (fun i => upperXF (ub i)) jactype solve) tol k it z).warned
        = true ∧
      (newtonLoopF (ncpProblemF order f (fun i => lowerXF (lb i)) (fun i => upperXF (ub i)) jactype solve) tol k it z).x j
        = .nan := by
  classical
  induction k with
  | zero => intro it z hz; exact ⟨rfl, hz⟩
  | succ k ih =>
    intro it z hz
    have hnan : HasNan ((ncpProblemF order f (fun i => lowerXF (lb i)) (fun i => upperXF (ub i)) jactype solve).f z).1 := by
      have hval : ∀ i, (smoothF (z i) (lowerXF (lb i)) (upperXF (ub i)) ((f z).1 i).neg).fxnew = .nan →
          ((ncpProblemF order f (fun i => lowerXF (lb i)) (fun i => upperXF (ub i)) jactype solve).f z).1 (order.symm i)
            = .nan := by
        intro i hi
        have e : (fcmpF f (fun i => lowerXF (lb i)) (fun i => upperXF (ub i)) jactype z).1 i = .nan := by
          cases jactype with
          | full => exact absurd rfl hj
          | serial => exact hi
          | sparse => exact hi
        change (fcmpF f _ _ jactype z).1 (order (order.symm i)) = _
        rw [Equiv.apply_symm_apply]
        exact e
      rcases hprop with h | h
      · exact ⟨_, hval j (by rw [hz]; exact smoothF_nan_point _ _ _ h)⟩
      · obtain ⟨i, hi⟩ := h z hz
        exact ⟨_, hval i (by rw [hi]; exact smoothF_nan_value _ _ _)⟩
    rw [newtonLoopF, if_neg (by rw [(absMaxF_nan _).2 hnan]; exact XF.nan_lt _)]
    refine ih _ _ ?_
    unfold NewtonF.next
    simp only [ncpProblemF]
    rw [hz]
    exact XF.nan_sub _

/-- **C153 (what follows in `ncpsolve`).**  Let the guess of `ncpsolve` be at a bound of the unknown `i` where the equation
`i` holds, and let every unknown that occurs in this equation be bounded, or such that the functions of the model give `nan`
when it is `nan`.  If the guess is not already a solution up to the tolerance, then `ncpsolve` warns, whatever the number of
iterations, and what it returns contains `nan`. -/
theorem C153_ncpsolve_fails (order : Fin (n + 1) ≃ ι) (f : (ι → XF) → (ι → XF) × (ι → ι → XF)) (lb ub : ι → Option ℝ)
    (hb : ∀ i, ∀ l ∈ lb i, ∀ u ∈ ub i, l ≤ u) (jactype : JacType) (hj : jactype ≠ .full)
    (solve : (ι → ι → XF) → (ι → XF) → ι → XF) (hs : SpreadsNan solve) (tol : XF) (maxit : ℕ) (x : ι → ℝ) (i : ι) (r : ℝ)
    (hr : (f fun k => .fin (x k)).1 i = .fin r) (hk : AtKink (ncpLower (lb i)) (ncpUpper (ub i)) (x i) r)
    (hprop : ∀ j, j = i ∨ jactype = .serial ∨ (f fun k => .fin (x k)).2 i j ≠ .fin 0 →
      (ncpLower (lb j) ≠ none ∨ ncpUpper (ub j) ≠ none) ∨ ∀ z, z j = .nan → ∃ k, (f z).1 k = .nan)
    (hsmall : ¬ SmallResidual tol fun k =>
      (fcmpF f (fun i => lowerXF (lb i)) (fun i => upperXF (ub i)) jactype fun k => .fin (x k)).1 (order k)) :
    (ncpsolveF order f (fun i => lowerXF (lb i)) (fun i => upperXF (ub i)) jactype solve tol maxit fun k => .fin (x k)).warned
      = true ∧
    (0 < maxit → ∃ j, (j = i ∨ jactype = .serial ∨ (f fun k => .fin (x k)).2 i j ≠ .fin 0) ∧
      (ncpsolveF order f (fun i => lowerXF (lb i)) (fun i => upperXF (ub i)) jactype solve tol maxit
        fun k => .fin (x k)).x j = .nan) := by
  classical
  unfold ncpsolveF newtonF
  rcases maxit with _ | k
  · exact ⟨rfl, fun h => absurd h (lt_irrefl _)⟩
  · obtain ⟨hrow, hocc⟩ := kink_row f lb ub jactype hj hb x i r hr hk
    have hn : ¬ (absMaxF ((ncpProblemF order f (fun i => lowerXF (lb i)) (fun i => upperXF (ub i)) jactype solve).f
        fun k => .fin (x k)).1).lt tol := fun h => hsmall ((smallResidual_iff _ _).1 h)
    obtain ⟨j, hj1, hj2⟩ := hs _ (fun i' => (fcmpF f (fun i => lowerXF (lb i)) (fun i => upperXF (ub i)) jactype
      fun k => .fin (x k)).1 (order (order.symm i'))) i hrow
    have hnext : (ncpProblemF order f (fun i => lowerXF (lb i)) (fun i => upperXF (ub i)) jactype solve).next
        (fun k => .fin (x k)) j = .nan := by
      unfold NewtonF.next
      simp only [ncpProblemF] at hj2 ⊢
      rw [hj2, XF.nan_mul, XF.sub_nan_right]
    have hst := newton_stays_nan order f lb ub jactype hj solve tol j (hprop j (hocc j hj1)) k 1 _ hnext
    rw [newtonLoopF, if_neg hn]
    exact ⟨hst.1, fun _ => ⟨j, hocc j hj1, hst.2⟩⟩

end newton

/-! ### Perfect foresight -/

section foresight

variable {S X E : Type} [DecidableEq S] [DecidableEq X] {n : ℕ}

/-- The rows of bounds as options. -/
private def optRows (T : ℕ) (b : ℕ → X → Option ℝ) : Fin (T + 1) × (S ⊕ X) → Option ℝ := fun ic =>
  match ic.2 with
  | .inl _ => none
  | .inr k => b ic.1 k

private theorem lowerRows (T : ℕ) (b : ℕ → X → Option ℝ) :
    boundRowsF (S := S) T .ninf (fun t k => lowerXF (b t k)) = fun ic => lowerXF (optRows T b ic) := by
  funext ⟨t, c⟩
  cases c <;> rfl

private theorem upperRows (T : ℕ) (b : ℕ → X → Option ℝ) :
    boundRowsF (S := S) T .pinf (fun t k => upperXF (b t k)) = fun ic => upperXF (optRows T b ic) := by
  funext ⟨t, c⟩
  cases c <;> rfl

private theorem guess_control (T : ℕ) (M : PFModel ℝ S X E) (s1 : S → ℝ) (i : ℕ) (b : X) :
    pfGuess M T s1 i (.inr b) = M.cX b := by
  simp only [pfGuess, Sum.elim_inr]
  ring

private theorem last_sub_one {T : ℕ} (hT : 1 ≤ T) : Fin.last T ≠ Fin.last T - 1 ∧ ((Fin.last T - 1 : Fin (T + 1)) : ℕ) = T - 1 := by
  have h : ((Fin.last T - 1 : Fin (T + 1)) : ℕ) = T - 1 := by
    have hne : Fin.last T ≠ 0 := by
      intro e
      have := congrArg Fin.val e
      simp at this
      omega
    rw [Fin.val_sub_one_of_ne_zero hne]
    simp
  refine ⟨fun e => ?_, h⟩
  have := congrArg Fin.val e
  rw [h] at this
  simp at this
  omega

/-- The residuals in this section are those of C38 and C126 when the functions of the model return numbers. -/
theorem detResidualF_fin [Fintype S] [Fintype X] [Fintype E] (T : ℕ) (hT : 1 ≤ T) (M : PFModel ℝ S X E)
    (g : (E → XF) → (S → XF) → (X → XF) → (E → XF) → S → XF)
    (f : (E → XF) → (S → XF) → (X → XF) → (E → XF) → (S → XF) → (X → XF) → X → XF)
    (hg : ∀ m s x m' a, g (fun k => .fin (m k)) (fun k => .fin (s k)) (fun k => .fin (x k)) (fun k => .fin (m' k)) a
      = .fin (M.g m s x m' a))
    (hf : ∀ m s x m' s' x' b, f (fun k => .fin (m k)) (fun k => .fin (s k)) (fun k => .fin (x k)) (fun k => .fin (m' k))
      (fun k => .fin (s' k)) (fun k => .fin (x' k)) b = .fin (M.f m s x m' s' x' b))
    (rows : (Fin (T + 1) × (S ⊕ X) → XF) → Fin (T + 1) × (S ⊕ X) → Fin (T + 1) × (S ⊕ X) → XF)
    (start : S → ℝ) (m : ℕ → E → ℝ) (u : ℕ → S ⊕ X → ℝ) (ic : Fin (T + 1) × (S ⊕ X)) :
    (detResidualF T g f rows (fun a => .fin (start a)) (fun t e => .fin (m t e)) fun jc => .fin (u jc.1 jc.2)).1 ic
      = .fin (pfRes M (T + 1) u start m ic.1 ic.2) := by
  obtain ⟨e1, e2, e3, e4⟩ := pfRes_entries M (T + 1) (by omega) u start m
  obtain ⟨t, a | b⟩ := ic
  · by_cases h : t = 0
    · subst h
      simp only [detResidualF, if_true, XF.sub, XF.neg]
      rw [show ((0 : Fin (T + 1)) : ℕ) = 0 from rfl, e1]
      congr 1
      ring
    · have h0 : (t : ℕ) ≠ 0 := fun e => h (Fin.ext e)
      have h1 : ((t - 1 : Fin (T + 1)) : ℕ) = (t : ℕ) - 1 := Fin.val_sub_one_of_ne_zero h
      simp only [detResidualF, if_neg h, h1]
      obtain ⟨k, hk⟩ : ∃ k, (t : ℕ) = k + 1 := ⟨(t : ℕ) - 1, by omega⟩
      have := t.2
      rw [hk, e2 k a (by omega), Nat.add_sub_cancel, hg]
      rfl
  · by_cases h : t = Fin.last T
    · subst h
      simp only [detResidualF, if_true, (last_sub_one hT).2, XF.sub, XF.neg]
      have h2 : ((Fin.last T : Fin (T + 1)) : ℕ) = T := rfl
      rw [h2]
      have := e4 b
      rw [Nat.add_sub_cancel, show T + 1 - 2 = T - 1 by omega] at this
      rw [this]
      congr 1
      ring
    · have h1 : (t : ℕ) + 1 < T + 1 := by
        have := t.2
        have : (t : ℕ) ≠ T := fun e => h (Fin.ext e)
        omega
      have h2 : ((t + 1 : Fin (T + 1)) : ℕ) = (t : ℕ) + 1 := by
        rw [Fin.val_add_one_of_lt (Fin.lt_last_iff_ne_last.2 h)]
      simp only [detResidualF, if_neg h, h2]
      rw [e3 t b h1, hf]
      rfl

/-- **C153, the disagreement.**  Let the calibrated value of a control be one of its (constant) bounds.  Then
`deterministic_solve` with the default guess can not solve any problem: unless the guess itself is a solution up to the
tolerance, `ncpsolve` warns, whatever the number of iterations, and some value of this control in the result is `nan`.  (The
guess is constant, so that the terminal condition holds exactly at the bound.) -/
theorem C153_perfect_foresight_fails (T : ℕ) (hT : 1 ≤ T) (order : Fin (n + 1) ≃ Fin (T + 1) × (S ⊕ X))
    (M : PFModel ℝ S X E) (g : (E → XF) → (S → XF) → (X → XF) → (E → XF) → S → XF)
    (f : (E → XF) → (S → XF) → (X → XF) → (E → XF) → (S → XF) → (X → XF) → X → XF)
    (rows : (Fin (T + 1) × (S ⊕ X) → XF) → Fin (T + 1) × (S ⊕ X) → Fin (T + 1) × (S ⊕ X) → XF)
    (spsolve : (Fin (T + 1) × (S ⊕ X) → Fin (T + 1) × (S ⊕ X) → XF) → (Fin (T + 1) × (S ⊕ X) → XF) →
      Fin (T + 1) × (S ⊕ X) → XF) (hs : SpreadsNan spsolve)
    (s1 : S → ℝ) (shocks : ℕ → E → XF) (lb ub : X → Option ℝ) (hb : ∀ k, ∀ l ∈ lb k, ∀ u ∈ ub k, l ≤ u)
    (tol : XF) (maxit : ℕ) (b : X) (hat : ncpLower (lb b) = some (M.cX b) ∨ ncpUpper (ub b) = some (M.cX b))
    (hsmall : ¬ SmallResidual tol fun k =>
      (fcmpF (detResidualF T g f rows (fun a => .fin (s1 a)) shocks) (boundRowsF T .ninf fun _ k => lowerXF (lb k))
        (boundRowsF T .pinf fun _ k => upperXF (ub k)) .sparse (guessF T M s1)).1 (order k)) :
    (foresightF T order g f rows spsolve (fun a => .fin (s1 a)) shocks (fun _ k => lowerXF (lb k))
      (fun _ k => upperXF (ub k)) tol maxit (guessF T M s1)).warned = true ∧
    (0 < maxit → ∃ t, (foresightF T order g f rows spsolve (fun a => .fin (s1 a)) shocks (fun _ k => lowerXF (lb k))
      (fun _ k => upperXF (ub k)) tol maxit (guessF T M s1)).x (t, .inr b) = .nan) := by
  classical
  obtain ⟨hne, hval⟩ := last_sub_one hT
  rw [lowerRows T fun _ => lb, upperRows T fun _ => ub] at hsmall
  unfold foresightF
  rw [lowerRows T fun _ => lb, upperRows T fun _ => ub]
  have hocc : ∀ j, (j = (Fin.last T, Sum.inr b) ∨ JacType.sparse = .serial ∨
      (detResidualF T g f rows (fun a => .fin (s1 a)) shocks (guessF T M s1)).2 (Fin.last T, .inr b) j ≠ .fin 0) →
      j.2 = .inr b := by
    rintro ⟨t, c⟩ (h | h | h)
    · rw [h]
    · cases h
    · rcases c with a | b'
      · exact absurd (by simp [detResidualF]) h
      · by_cases hbb : b = b'
        · rw [hbb]
        · exfalso
          apply h
          simp [detResidualF, hbb]
  have key := C153_ncpsolve_fails order (detResidualF T g f rows (fun a => .fin (s1 a)) shocks)
    (optRows T fun _ => lb) (optRows T fun _ => ub) (fun ic => by
      rcases ic with ⟨t, a | k⟩
      · intro l hl; cases hl
      · exact hb k) .sparse (by simp) spsolve hs tol maxit
    (fun ic => pfGuess M T s1 ic.1 ic.2) (Fin.last T, .inr b) 0
    (by
      simp only [detResidualF, if_true, guess_control, XF.sub, XF.neg]
      simp)
    (by
      left
      refine ⟨?_, rfl⟩
      simp only [optRows, guess_control]
      exact hat)
    (fun j hj => by
      left
      have := hocc j hj
      have e1 : optRows T (fun _ => lb) j = lb b := by unfold optRows; rw [this]
      have e2 : optRows T (fun _ => ub) j = ub b := by unfold optRows; rw [this]
      rw [e1, e2]
      rcases hat with h | h
      · left; rw [h]; simp
      · right; rw [h]; simp)
    hsmall
  refine ⟨key.1, fun hm => ?_⟩
  obtain ⟨⟨t, c⟩, h1, h2⟩ := key.2 hm
  have := hocc _ h1
  simp only at this
  subst this
  exact ⟨t, h2⟩

/-- A control that is zero in the calibration, its lower bound, in a model where a shock makes a positive control optimal at
the first date. -/
example : ∃ (spsolve : (Fin 3 × (Unit ⊕ Unit) → Fin 3 × (Unit ⊕ Unit) → XF) → (Fin 3 × (Unit ⊕ Unit) → XF) →
      Fin 3 × (Unit ⊕ Unit) → XF) (order : Fin (5 + 1) ≃ Fin (2 + 1) × (Unit ⊕ Unit)), SpreadsNan spsolve ∧
    ∀ rows maxit, 0 < maxit → ∃ t, (foresightF 2 order (fun _ _ _ _ _ => .fin 0)
      (fun m _ x _ _ _ _ => (x ()).sub (m ())) rows spsolve (fun _ => .fin 0) (fun t _ => .fin (if t = 0 then 1 else 0))
      (fun _ _ => lowerXF (some 0)) (fun _ _ => upperXF none) (.fin (1 / 10 ^ 6)) maxit
      (guessF (E := Unit) 2 ⟨fun _ _ _ _ _ => 0, fun m _ x _ _ _ _ => x () - m (), fun _ => 0, fun _ => 0, fun _ => 0,
        fun _ => (fun _ => 0, fun _ => 0)⟩ fun _ => 0)).x (t, .inr ()) = .nan := by
  classical
  let spsolve : (Fin 3 × (Unit ⊕ Unit) → Fin 3 × (Unit ⊕ Unit) → XF) → (Fin 3 × (Unit ⊕ Unit) → XF) →
      Fin 3 × (Unit ⊕ Unit) → XF := fun J v => if ∃ i, NanRow J i then fun _ => .nan else v
  let order : Fin (5 + 1) ≃ Fin (2 + 1) × (Unit ⊕ Unit) := (Fintype.equivFinOfCardEq (by simp)).symm
  have hs : SpreadsNan spsolve := fun J v i h => ⟨i, h.1, by simp only [spsolve]; rw [if_pos ⟨i, h⟩]⟩
  have hl : ncpLower (some 0) = some (0 : ℝ) := by
    unfold ncpLower
    rw [Option.filter_eq_some_iff]
    simp
  refine ⟨spsolve, order, hs, fun rows maxit hm => ?_⟩
  refine (C153_perfect_foresight_fails 2 (by norm_num) order
    ⟨fun _ _ _ _ _ => 0, fun m _ x _ _ _ _ => x () - m (), fun _ => 0, fun _ => 0, fun _ => 0,
        fun _ => (fun _ => 0, fun _ => 0)⟩ (fun _ _ _ _ _ => .fin 0)
    (fun m _ x _ _ _ _ => (x ()).sub (m ())) rows spsolve hs (fun _ => 0) (fun t _ => .fin (if t = 0 then 1 else 0))
    (fun _ => some 0) (fun _ => none) (fun _ l _ u hu => by cases hu) (.fin (1 / 10 ^ 6)) maxit () (.inl hl) ?_).2 hm
  intro h
  obtain ⟨a, ha, hlt⟩ := h (order.symm (0, .inr ()))
  beta_reduce at ha
  rw [Equiv.apply_symm_apply] at ha
  have hv : (smoothF (.fin 0) (lowerXF (some 0)) (upperXF none) (.fin (-(-1)))).fxnew = .fin 2 := by
    rw [(C153_ncpsolve (some 0) none (fun l _ u hu => by cases hu) 0 (-1)).1]
    have : √((- -1 : ℝ) ^ 2 + (0 - 0) ^ 2) = 1 := by norm_num
    simp only [ncpFxnew, ncpUpper, Option.filter_none, ncpPval, hl, this]
    norm_num
  let M : PFModel ℝ Unit Unit Unit := ⟨fun _ _ _ _ _ => 0, fun m _ x _ _ _ _ => x () - m (), fun _ => 0, fun _ => 0,
    fun _ => 0, fun _ => (fun _ => 0, fun _ => 0)⟩
  have hz : guessF 2 M (fun _ => 0) ((0 : Fin 3), .inr ()) = .fin 0 := congrArg XF.fin (guess_control 2 M _ _ ())
  have hr : (detResidualF 2 (fun _ _ _ _ _ => .fin 0) (fun m _ x _ _ _ _ => (x ()).sub (m ())) rows
      (fun _ => .fin 0) (fun t (_ : Unit) => .fin (if t = 0 then 1 else 0)) (guessF 2 M fun _ => 0)).1
      ((0 : Fin 3), (Sum.inr () : Unit ⊕ Unit)) = .fin (-1) := by
    have h0 : ¬ ((0 : Fin 3) = Fin.last 2) := by decide
    unfold detResidualF
    simp only [if_neg h0, hz, XF.sub]
    simp
  have e : (fcmpF (detResidualF 2 (fun _ _ _ _ _ => .fin 0) (fun m _ x _ _ _ _ => (x ()).sub (m ())) rows
      (fun _ => .fin 0) (fun t (_ : Unit) => .fin (if t = 0 then 1 else 0)))
      (boundRowsF 2 .ninf fun _ (_ : Unit) => lowerXF (some 0)) (boundRowsF 2 .pinf fun _ _ => upperXF none) .sparse
      (guessF 2 M fun _ => 0)).1 ((0 : Fin 3), (Sum.inr () : Unit ⊕ Unit)) = .fin 2 := by
    refine Eq.trans ?_ hv
    change (smoothF (guessF 2 M (fun _ => 0) ((0 : Fin 3), .inr ())) (lowerXF (some 0)) (upperXF none)
      (XF.neg ((detResidualF 2 _ _ rows _ _ (guessF 2 M fun _ => 0)).1 ((0 : Fin 3), .inr ())))).fxnew = _
    rw [hr, hz]
    rfl
  obtain rfl : a = 2 := by
    have := ha.symm.trans e
    simpa using this
  have : |(2 : ℝ)| < 1 / 10 ^ 6 := hlt
  norm_num at this

end foresight

end Dolo
