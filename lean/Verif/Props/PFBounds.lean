import Mathlib.Tactic.Linarith
import Verif.Model.PFBounds
import Verif.Props.PFSteady

/-!
# C127: the bounds in perfect foresight

When `deterministic_solve` refuses bounds, and what the bounds it accepts mean for the path it returns.
-/

set_option linter.unusedSectionVars false

namespace Dolo

/-! ### The test -/

theorem XF.gt_trans' {a v c : XF} (h : v.gt a) (hc : a.gt c) : v.gt c := by
  cases a <;> cases v <;> cases c <;> simp_all [XF.gt]
  linarith

theorem XF.gt_of_not {a v c : XF} (ha : a ≠ .nan) (h : ¬ v.gt a) (hc : v.gt c) : a.gt c := by
  cases a <;> cases v <;> cases c <;> simp_all [XF.gt]
  linarith

theorem XF.gt_ne_nan {a c : XF} (h : a.gt c) : a ≠ .nan ∧ c ≠ .nan := by
  cases a <;> cases c <;> simp_all [XF.gt]

theorem XF.gt_irrefl (a : XF) : ¬ a.gt a := by
  cases a <;> simp [XF.gt]

theorem XF.gt_asymm {a b : XF} (h : a.gt b) : ¬ b.gt a := by
  cases a <;> cases b <;> simp_all [XF.gt]
  linarith

/-- Python's `max` exceeds a threshold if and only if some entry does and the first entry is not `nan`. -/
theorem pyMaxF_gt (c : XF) (a : XF) (l : List XF) :
    ∃ r, pyMaxF (a :: l) = .ok r ∧ (r.gt c ↔ a ≠ .nan ∧ ∃ v ∈ a :: l, v.gt c) := by
  refine ⟨_, rfl, ?_⟩
  induction l generalizing a with
  | nil =>
    simp only [List.foldl_nil, List.mem_singleton, exists_eq_left]
    exact ⟨fun h => ⟨(XF.gt_ne_nan h).1, h⟩, fun h => h.2⟩
  | cons v l ih =>
    rw [List.foldl_cons, ih]
    by_cases hv : v.gt a
    · rw [if_pos hv]
      obtain ⟨h1, h2⟩ := XF.gt_ne_nan hv
      constructor
      · rintro ⟨-, w, hw, hc⟩
        exact ⟨h2, w, List.mem_cons_of_mem _ hw, hc⟩
      · rintro ⟨-, w, hw, hc⟩
        refine ⟨h1, ?_⟩
        rcases List.mem_cons.1 hw with rfl | hw
        · exact ⟨v, List.mem_cons_self, XF.gt_trans' hv hc⟩
        · exact ⟨w, hw, hc⟩
    · rw [if_neg hv]
      constructor
      · rintro ⟨h, w, hw, hc⟩
        refine ⟨h, w, ?_, hc⟩
        rcases List.mem_cons.1 hw with rfl | hw
        · exact List.mem_cons_self
        · exact List.mem_cons_of_mem _ (List.mem_cons_of_mem _ hw)
      · rintro ⟨h, w, hw, hc⟩
        refine ⟨h, ?_⟩
        rcases List.mem_cons.1 hw with rfl | hw
        · exact ⟨w, List.mem_cons_self, hc⟩
        · rcases List.mem_cons.1 hw with rfl | hw
          · exact ⟨a, List.mem_cons_self, XF.gt_of_not h hv hc⟩
          · exact ⟨w, List.mem_cons_of_mem _ hw, hc⟩

theorem npMax_spec (a : XF) (l : List XF) (ha : a ≠ .nan) (hl : ∀ v ∈ l, v ≠ .nan) :
    npMax a l ∈ a :: l ∧ ∀ v ∈ a :: l, ¬ v.gt (npMax a l) := by
  classical
  unfold npMax
  induction l generalizing a with
  | nil => simpa using XF.gt_irrefl a
  | cons w l ih =>
    have hw := hl w List.mem_cons_self
    rw [List.foldl_cons]
    have e : a.npMax2 w = if w.gt a then w else a := by
      unfold XF.npMax2
      rw [if_neg ha, if_neg hw]
    rw [e]
    by_cases h : w.gt a
    · rw [if_pos h]
      obtain ⟨h1, h2⟩ := ih w hw fun v hv => hl v (List.mem_cons_of_mem _ hv)
      refine ⟨List.mem_cons_of_mem _ h1, fun v hv => ?_⟩
      rcases List.mem_cons.1 hv with rfl | hv
      · exact fun h' => h2 w List.mem_cons_self (XF.gt_trans' h h')
      · exact h2 v hv
    · rw [if_neg h]
      obtain ⟨h1, h2⟩ := ih a ha fun v hv => hl v (List.mem_cons_of_mem _ hv)
      refine ⟨?_, fun v hv => ?_⟩
      · rcases List.mem_cons.1 h1 with h1 | h1
        · rw [h1]; exact List.mem_cons_self
        · exact List.mem_cons_of_mem _ (List.mem_cons_of_mem _ h1)
      · rcases List.mem_cons.1 hv with rfl | hv
        · exact h2 _ List.mem_cons_self
        · rcases List.mem_cons.1 hv with rfl | hv
          · exact fun h' => h2 a List.mem_cons_self (XF.gt_of_not ha h h')
          · exact h2 v (List.mem_cons_of_mem _ hv)

theorem npMin_spec (a : XF) (l : List XF) (ha : a ≠ .nan) (hl : ∀ v ∈ l, v ≠ .nan) :
    npMin a l ∈ a :: l ∧ ∀ v ∈ a :: l, ¬ (npMin a l).gt v := by
  classical
  unfold npMin
  induction l generalizing a with
  | nil => simpa using XF.gt_irrefl a
  | cons w l ih =>
    have hw := hl w List.mem_cons_self
    rw [List.foldl_cons]
    have e : a.npMin2 w = if a.gt w then w else a := by
      unfold XF.npMin2
      rw [if_neg ha, if_neg hw]
    rw [e]
    by_cases h : a.gt w
    · rw [if_pos h]
      obtain ⟨h1, h2⟩ := ih w hw fun v hv => hl v (List.mem_cons_of_mem _ hv)
      refine ⟨List.mem_cons_of_mem _ h1, fun v hv => ?_⟩
      rcases List.mem_cons.1 hv with rfl | hv
      · exact fun h' => h2 w List.mem_cons_self (XF.gt_trans' h' h)
      · exact h2 v hv
    · rw [if_neg h]
      obtain ⟨h1, h2⟩ := ih a ha fun v hv => hl v (List.mem_cons_of_mem _ hv)
      refine ⟨?_, fun v hv => ?_⟩
      · rcases List.mem_cons.1 h1 with h1 | h1
        · rw [h1]; exact List.mem_cons_self
        · exact List.mem_cons_of_mem _ (List.mem_cons_of_mem _ h1)
      · rcases List.mem_cons.1 hv with rfl | hv
        · exact h2 _ List.mem_cons_self
        · rcases List.mem_cons.1 hv with rfl | hv
          · intro h'
            by_cases hm : (List.foldl XF.npMin2 a l).gt a
            · exact h2 a List.mem_cons_self hm
            · exact h (XF.gt_of_not ha hm h')
          · exact h2 v (List.mem_cons_of_mem _ hv)

/-- The bound of control `k` differs by more than `1e-8` between two of the dates `0, ..., T`. -/
def Varies {nx : ℕ} (T : ℕ) (b : ℕ → Fin nx → XF) (k : Fin nx) : Prop :=
  ∃ t ≤ T, ∃ t' ≤ T, ((b t k).sub (b t' k)).gt (.fin (1 / 10 ^ 8))

/-- The bound of control `k` is the same infinity at all dates. -/
def AlwaysInfinite {nx : ℕ} (T : ℕ) (b : ℕ → Fin nx → XF) (k : Fin nx) : Prop :=
  (∀ t ≤ T, b t k = .ninf) ∨ ∀ t ≤ T, b t k = .pinf

theorem mem_column (T : ℕ) (col : ℕ → XF) (v : XF) :
    v ∈ col 0 :: (List.range T).map (fun t => col (t + 1)) ↔ ∃ t ≤ T, v = col t := by
  constructor
  · intro h
    rcases List.mem_cons.1 h with rfl | h
    · exact ⟨0, Nat.zero_le _, rfl⟩
    · obtain ⟨t, ht, rfl⟩ := List.mem_map.1 h
      exact ⟨t + 1, List.mem_range.1 ht, rfl⟩
  · rintro ⟨t, ht, rfl⟩
    rcases t with _ | t
    · exact List.mem_cons_self
    · exact List.mem_cons_of_mem _ (List.mem_map.2 ⟨t, List.mem_range.2 ht, rfl⟩)

theorem spread_spec (T : ℕ) (col : ℕ → XF) (h : ∀ t ≤ T, col t ≠ .nan) :
    ((spread T col).gt (.fin (1 / 10 ^ 8)) ↔ ∃ t ≤ T, ∃ t' ≤ T, ((col t).sub (col t')).gt (.fin (1 / 10 ^ 8))) ∧
    (spread T col = .nan ↔ (∀ t ≤ T, col t = .ninf) ∨ ∀ t ≤ T, col t = .pinf) := by
  have hl : ∀ v ∈ (List.range T).map (fun t => col (t + 1)), v ≠ XF.nan := by
    intro v hv
    obtain ⟨t, ht, rfl⟩ := List.mem_map.1 hv
    exact h _ (List.mem_range.1 ht)
  obtain ⟨m1, m2⟩ := npMax_spec (col 0) _ (h 0 (Nat.zero_le _)) hl
  obtain ⟨n1, n2⟩ := npMin_spec (col 0) _ (h 0 (Nat.zero_le _)) hl
  have m2' : ∀ t ≤ T, ¬ (col t).gt (npMax (col 0) ((List.range T).map fun t => col (t + 1))) := fun t ht =>
    m2 _ ((mem_column T col _).2 ⟨t, ht, rfl⟩)
  have n2' : ∀ t ≤ T, ¬ (npMin (col 0) ((List.range T).map fun t => col (t + 1))).gt (col t) := fun t ht =>
    n2 _ ((mem_column T col _).2 ⟨t, ht, rfl⟩)
  obtain ⟨i, hi, ei⟩ := (mem_column T col _).1 m1
  obtain ⟨j, hj, ej⟩ := (mem_column T col _).1 n1
  unfold spread
  simp only
  rw [ei] at m2' ⊢
  rw [ej] at n2' ⊢
  refine ⟨⟨fun hs => ⟨i, hi, j, hj, hs⟩, ?_⟩, ?_, ?_⟩
  · rintro ⟨t, ht, t', ht', hs⟩
    have k1 := m2' t ht
    have k2 := n2' t' ht'
    have k3 := h t ht
    have k4 := h t' ht'
    have k5 := h i hi
    have k6 := h j hj
    generalize col t = a at *
    generalize col t' = b at *
    generalize col i = c at *
    generalize col j = e at *
    clear m2' n2' m2 n2 m1 n1 ei ej h hl
    cases a <;> cases b <;> cases c <;> cases e <;> simp_all [XF.gt, XF.sub] <;> linarith
  · intro hs
    have k5 := h i hi
    have k6 := h j hj
    have : (col i = .ninf ∧ col j = .ninf) ∨ (col i = .pinf ∧ col j = .pinf) := by
      generalize col i = c at *
      generalize col j = e at *
      cases c <;> cases e <;> simp_all [XF.sub]
    rcases this with ⟨h1, h2⟩ | ⟨h1, h2⟩
    · refine .inl fun t ht => ?_
      have k1 := m2' t ht
      have k3 := h t ht
      rw [h1] at k1
      cases hc : col t <;> rw [hc] at k1 k3 <;> simp_all [XF.gt]
    · refine .inr fun t ht => ?_
      have k1 := n2' t ht
      have k3 := h t ht
      rw [h2] at k1
      cases hc : col t <;> rw [hc] at k1 k3 <;> simp_all [XF.gt]
  · rintro (h1 | h1) <;> rw [h1 i hi, h1 j hj] <;> rfl

theorem boundTest_spec {n : ℕ} (T : ℕ) (b : ℕ → Fin (n + 1) → XF) (h : ∀ t ≤ T, ∀ k, b t k ≠ .nan) :
    ∃ r, boundTest T b = .ok r ∧ (r.gt (.fin (1 / 10 ^ 8)) ↔ ¬ AlwaysInfinite T b 0 ∧ ∃ k, Varies T b k) := by
  have e : (List.finRange (n + 1)).map (fun k => spread T fun t => b t k)
      = spread T (fun t => b t 0) :: (List.finRange n).map (fun k => spread T fun t => b t k.succ) := by
    rw [List.finRange_succ, List.map_cons, List.map_map]
    rfl
  obtain ⟨r, hr, hg⟩ := pyMaxF_gt (.fin (1 / 10 ^ 8)) (spread T (fun t => b t 0))
    ((List.finRange n).map (fun k => spread T fun t => b t k.succ))
  refine ⟨r, by unfold boundTest; rw [e]; exact hr, hg.trans (and_congr ?_ ?_)⟩
  · exact not_congr (spread_spec T _ fun t ht => h t ht 0).2
  · rw [← e]
    constructor
    · rintro ⟨v, hv, hc⟩
      obtain ⟨k, -, rfl⟩ := List.mem_map.1 hv
      exact ⟨k, (spread_spec T _ fun t ht => h t ht k).1.1 hc⟩
    · rintro ⟨k, hk⟩
      exact ⟨_, List.mem_map.2 ⟨k, List.mem_finRange k, rfl⟩, (spread_spec T _ fun t ht => h t ht k).1.2 hk⟩

/-- **C127, when bounds are refused.**  For bounds without `nan`, evaluated at the dates of the guess: the exception is
raised if and only if, among the lower bounds or among the upper bounds, some control has a bound that varies by more than
`1e-8`, *and* the bound of the first control is not infinite throughout.  Otherwise the bounds are accepted. -/
theorem C127_refused_iff {n : ℕ} (T : ℕ) (lb ub : ℕ → Fin (n + 1) → XF) (hl : ∀ t ≤ T, ∀ k, lb t k ≠ .nan)
    (hu : ∀ t ≤ T, ∀ k, ub t k ≠ .nan) :
    (checkBounds T lb ub = .error (.exception boundsMessage) ↔
      (¬ AlwaysInfinite T lb 0 ∧ ∃ k, Varies T lb k) ∨ (¬ AlwaysInfinite T ub 0 ∧ ∃ k, Varies T ub k)) ∧
    (checkBounds T lb ub ≠ .error (.exception boundsMessage) → checkBounds T lb ub = .ok ()) := by
  classical
  obtain ⟨r1, e1, h1⟩ := boundTest_spec T lb hl
  obtain ⟨r2, e2, h2⟩ := boundTest_spec T ub hu
  have e : checkBounds T lb ub = if r1.gt (.fin (1 / 10 ^ 8)) ∨ r2.gt (.fin (1 / 10 ^ 8)) then
      .error (.exception boundsMessage) else .ok () := by
    unfold checkBounds
    rw [e1, e2]
    rfl
  rw [e, ← h1, ← h2]
  split_ifs with c
  · exact ⟨⟨fun _ => c, fun _ => rfl⟩, fun h => absurd rfl h⟩
  · exact ⟨⟨(nomatch ·), fun h => absurd h c⟩, fun _ => rfl⟩

variable {S E : Type} {nx : ℕ} [Fintype S] [DecidableEq S] [Fintype E]

/-- The bound functions of a model, evaluated along the guess from `s1`. -/
noncomputable def alongGuess (M : PFModel ℝ S (Fin nx) E) (T : ℕ) (s1 : S → ℝ) (eps : ℕ → E → ℝ)
    (b : (E → ℝ) → (S → ℝ) → Fin nx → XF) : ℕ → Fin nx → XF :=
  fun t => b (eps t) fun a => pfGuess M T s1 t (.inl a)

theorem pfSolve_eq (M : PFModel ℝ S (Fin nx) E) (d : PFDiff S (Fin nx) E)
    (spsolve : (ℕ → S ⊕ Fin nx → ℕ → S ⊕ Fin nx → ℝ) → (ℕ → S ⊕ Fin nx → ℝ) → ℕ → S ⊕ Fin nx → ℝ)
    (lbF ubF : (E → ℝ) → (S → ℝ) → Fin nx → XF) (T : ℕ) (given keep : Bool) (eps : ℕ → E → ℝ) (s0 : Option (S → ℝ))
    (m0 : Option (E → ℝ)) (tol : ℝ) (maxit : ℕ) {s0' : S → ℝ} {x0 : Fin nx → ℝ} {s1 : S → ℝ}
    (h : pfStart M T given eps s0 m0 = .ok (s0', x0, s1)) :
    pfSolve M d spsolve (some (lbF, ubF)) false T given keep eps s0 m0 tol maxit
      = (checkBounds T (alongGuess M T s1 eps lbF) (alongGuess M T s1 eps ubF)).bind fun _ =>
        pfSolveNcp M d spsolve T given keep eps s0 m0 (fun t k => (alongGuess M T s1 eps lbF t k).finite?)
          (fun t k => (alongGuess M T s1 eps ubF t k).finite?) tol maxit := by
  unfold pfSolve
  rw [h]
  rfl

/-- **C127, constant bounds.**  Bounds that do not depend on states or exogenous variables are accepted, and the solver
receives them at every date. -/
theorem C127_constant_bounds {n : ℕ} (M : PFModel ℝ S (Fin (n + 1)) E) (d : PFDiff S (Fin (n + 1)) E)
    (spsolve : (ℕ → S ⊕ Fin (n + 1) → ℕ → S ⊕ Fin (n + 1) → ℝ) → (ℕ → S ⊕ Fin (n + 1) → ℝ) → ℕ → S ⊕ Fin (n + 1) → ℝ)
    (lbF ubF : (E → ℝ) → (S → ℝ) → Fin (n + 1) → XF) (lo hi : Fin (n + 1) → XF) (hl : ∀ m s, lbF m s = lo)
    (hh : ∀ m s, ubF m s = hi) (hlo : ∀ k, lo k ≠ .nan) (hhi : ∀ k, hi k ≠ .nan) {T : ℕ} (hT : 1 ≤ T) (given keep : Bool)
    (eps : ℕ → E → ℝ) (s0 : Option (S → ℝ)) (m0 : Option (E → ℝ)) (tol : ℝ) (maxit : ℕ) :
    pfSolve M d spsolve (some (lbF, ubF)) false T given keep eps s0 m0 tol maxit
      = pfSolveNcp M d spsolve T given keep eps s0 m0 (fun _ k => (lo k).finite?) (fun _ k => (hi k).finite?) tol maxit := by
  obtain ⟨s0', x0, s1, h⟩ : ∃ s0' x0 s1, pfStart M T given eps s0 m0 = .ok (s0', x0, s1) := by
    unfold pfStart
    rw [if_neg (by omega)]
    cases given
    · exact ⟨_, _, _, rfl⟩
    · exact ⟨_, _, _, rfl⟩
  rw [pfSolve_eq M d spsolve lbF ubF T given keep eps s0 m0 tol maxit h]
  have el : alongGuess M T s1 eps lbF = fun _ => lo := funext fun t => hl _ _
  have eh : alongGuess M T s1 eps ubF = fun _ => hi := funext fun t => hh _ _
  rw [el, eh]
  have hself : ∀ v : XF, ¬ (v.sub v).gt (.fin (1 / 10 ^ 8)) := by
    intro v
    cases v <;> simp [XF.sub, XF.gt]
  obtain ⟨h1, h2⟩ := C127_refused_iff T (fun _ => lo) (fun _ => hi) (fun _ _ => hlo) (fun _ _ => hhi)
  rw [h2 fun h3 => by
    rcases h1.1 h3 with ⟨-, k, t, -, t', -, hv⟩ | ⟨-, k, t, -, t', -, hv⟩
    · exact hself _ hv
    · exact hself _ hv]
  rfl

/-- **C127, no refusal.**  If the first control of the model has no bounds, then the call never refuses the bounds of the
others, however they depend on states and exogenous variables. -/
theorem C127_first_control_free {n : ℕ} (M : PFModel ℝ S (Fin (n + 1)) E) (d : PFDiff S (Fin (n + 1)) E)
    (spsolve : (ℕ → S ⊕ Fin (n + 1) → ℕ → S ⊕ Fin (n + 1) → ℝ) → (ℕ → S ⊕ Fin (n + 1) → ℝ) → ℕ → S ⊕ Fin (n + 1) → ℝ)
    (lbF ubF : (E → ℝ) → (S → ℝ) → Fin (n + 1) → XF) (hl : ∀ m s k, lbF m s k ≠ .nan) (hh : ∀ m s k, ubF m s k ≠ .nan)
    (hl0 : ∀ m s, lbF m s 0 = .ninf) (hh0 : ∀ m s, ubF m s 0 = .pinf) (T : ℕ) (given keep : Bool)
    (eps : ℕ → E → ℝ) (s0 : Option (S → ℝ)) (m0 : Option (E → ℝ)) (tol : ℝ) (maxit : ℕ) {s0' : S → ℝ}
    {x0 : Fin (n + 1) → ℝ} {s1 : S → ℝ} (h : pfStart M T given eps s0 m0 = .ok (s0', x0, s1)) :
    pfSolve M d spsolve (some (lbF, ubF)) false T given keep eps s0 m0 tol maxit
      = pfSolveNcp M d spsolve T given keep eps s0 m0 (fun t k => (alongGuess M T s1 eps lbF t k).finite?)
          (fun t k => (alongGuess M T s1 eps ubF t k).finite?) tol maxit := by
  rw [pfSolve_eq M d spsolve lbF ubF T given keep eps s0 m0 tol maxit h]
  obtain ⟨h1, h2⟩ := C127_refused_iff T (alongGuess M T s1 eps lbF) (alongGuess M T s1 eps ubF) (fun _ _ => hl _ _)
    (fun _ _ => hh _ _)
  rw [h2 fun h3 => by
    rcases h1.1 h3 with ⟨h4, -⟩ | ⟨h4, -⟩
    · exact h4 (.inl fun t _ => hl0 _ _)
    · exact h4 (.inr fun t _ => hh0 _ _)]
  rfl

/-- **C127, refusal by the call.**  A bound that varies along the guess is refused by the call, provided that the bound of
the first control is not infinite throughout. -/
theorem C127_refused {n : ℕ} (M : PFModel ℝ S (Fin (n + 1)) E) (d : PFDiff S (Fin (n + 1)) E)
    (spsolve : (ℕ → S ⊕ Fin (n + 1) → ℕ → S ⊕ Fin (n + 1) → ℝ) → (ℕ → S ⊕ Fin (n + 1) → ℝ) → ℕ → S ⊕ Fin (n + 1) → ℝ)
    (lbF ubF : (E → ℝ) → (S → ℝ) → Fin (n + 1) → XF) (hl : ∀ m s k, lbF m s k ≠ .nan) (hh : ∀ m s k, ubF m s k ≠ .nan)
    (T : ℕ) (given keep : Bool) (eps : ℕ → E → ℝ) (s0 : Option (S → ℝ)) (m0 : Option (E → ℝ)) (tol : ℝ) (maxit : ℕ)
    {s0' : S → ℝ} {x0 : Fin (n + 1) → ℝ} {s1 : S → ℝ} (h : pfStart M T given eps s0 m0 = .ok (s0', x0, s1))
    (hv : (¬ AlwaysInfinite T (alongGuess M T s1 eps lbF) 0 ∧ ∃ k, Varies T (alongGuess M T s1 eps lbF) k) ∨
      (¬ AlwaysInfinite T (alongGuess M T s1 eps ubF) 0 ∧ ∃ k, Varies T (alongGuess M T s1 eps ubF) k)) :
    pfSolve M d spsolve (some (lbF, ubF)) false T given keep eps s0 m0 tol maxit = .error (.exception boundsMessage) := by
  rw [pfSolve_eq M d spsolve lbF ubF T given keep eps s0 m0 tol maxit h,
    (C127_refused_iff T (alongGuess M T s1 eps lbF) (alongGuess M T s1 eps ubF) (fun _ _ => hl _ _) (fun _ _ => hh _ _)).1.2 hv]
  rfl

/-- **C127, ignored constraints.**  With `ignore_constraints`, or without bounds, the bounds play no role. -/
theorem C127_ignored (M : PFModel ℝ S (Fin nx) E) (d : PFDiff S (Fin nx) E)
    (spsolve : (ℕ → S ⊕ Fin nx → ℕ → S ⊕ Fin nx → ℝ) → (ℕ → S ⊕ Fin nx → ℝ) → ℕ → S ⊕ Fin nx → ℝ)
    (bounds : Option (((E → ℝ) → (S → ℝ) → Fin nx → XF) × ((E → ℝ) → (S → ℝ) → Fin nx → XF))) (ignore : Bool)
    (h : bounds = none ∨ ignore = true) (T : ℕ) (given keep : Bool) (eps : ℕ → E → ℝ) (s0 : Option (S → ℝ))
    (m0 : Option (E → ℝ)) (tol : ℝ) (maxit : ℕ) :
    pfSolve M d spsolve bounds ignore T given keep eps s0 m0 tol maxit
      = pfSolveFree M d spsolve T given keep eps s0 m0 tol maxit := by
  unfold pfSolve
  rcases hs : pfStart M T given eps s0 m0 with e | ⟨s0', x0, s1⟩
  · unfold pfSolveFree
    rw [hs]
    rfl
  · rcases h with rfl | rfl
    · rfl
    · cases bounds <;> rfl

/-- **C127, constant bounds near a steady state.**  With constant bounds, not reached at a regular steady state, the call
with the default guess succeeds for all data close to the calibration, and the controls it returns respect the bounds up to a
multiple of the tolerance. -/
theorem C127_bounds_respected {n : ℕ} (M : PFModel ℝ S (Fin (n + 1)) E) (d : PFDiff S (Fin (n + 1)) E) (hd : d.IsDerivative M)
    {T : ℕ} (hT : 1 ≤ T) (lbF ubF : (E → ℝ) → (S → ℝ) → Fin (n + 1) → XF) (lo hi : Fin (n + 1) → XF)
    (hl : ∀ m s, lbF m s = lo) (hh : ∀ m s, ubF m s = hi) (hlo : ∀ k, lo k ≠ .nan) (hhi : ∀ k, hi k ≠ .nan)
    (hlb : ∀ k l, lo k = .fin l → -(10 ^ 20) < l ∧ l < M.cX k) (hub : ∀ k h, hi k = .fin h → h < 10 ^ 20 ∧ M.cX k < h)
    (hu : PFRegular M d (T + 1) M.cS (fun _ => M.cE) (steadyPath M))
    (spsolve : (ℕ → S ⊕ Fin (n + 1) → ℕ → S ⊕ Fin (n + 1) → ℝ) → (ℕ → S ⊕ Fin (n + 1) → ℝ) → ℕ → S ⊕ Fin (n + 1) → ℝ)
    (hsp : SpsolveExact (T + 1) spsolve) {ρ : ℝ} (hρ0 : 0 < ρ) (hρ1 : ρ < 1) :
    ∃ C > 0, ∃ δ > 0, ∀ r, 0 ≤ r → r < δ → ∀ given keep eps s0 m0, StartClose M T r given eps s0 m0 →
      ∀ tol, 0 < tol → ∀ n0 : ℕ, C * r * ρ ^ n0 < tol → ∀ maxit, n0 < maxit → ∃ s0' x0 sol,
        pfSolve M d spsolve (some (lbF, ubF)) false T given keep eps s0 m0 tol maxit
          = .ok (pfTable T given keep s0' x0 sol eps, false) ∧
        ∀ t ≤ T, ∀ k, (∀ l, lo k = .fin l → l - C * tol ≤ sol t (.inr k)) ∧ ∀ h, hi k = .fin h → sol t (.inr k) ≤ h + C * tol := by
  have el : ∀ (k : Fin (n + 1)) l, l ∈ (lo k).finite? → lo k = .fin l := by
    intro k l h
    cases hk : lo k <;> rw [hk] at h <;> simp_all [XF.finite?]
  have eh : ∀ (k : Fin (n + 1)) l, l ∈ (hi k).finite? → hi k = .fin l := by
    intro k l h
    cases hk : hi k <;> rw [hk] at h <;> simp_all [XF.finite?]
  obtain ⟨C, hC, δ, hδ, h⟩ := C126_steady_state_bounds M d hd hT (fun _ k => (lo k).finite?) (fun _ k => (hi k).finite?)
    ⟨fun t _ k l h1 u h2 => ((hlb k l (el k l h1)).2.trans (hub k u (eh k u h2)).2).le,
      fun t _ k l h1 => (hlb k l (el k l h1)).1, fun t _ k u h2 => (hub k u (eh k u h2)).1⟩ hu
    (fun t _ k => ⟨fun l h1 => (hlb k l (el k l h1)).2, fun u h2 => (hub k u (eh k u h2)).2⟩) spsolve hsp hρ0 hρ1
  refine ⟨C, hC, δ, hδ, fun r hr0 hr given keep eps s0 m0 hs tol htol n0 hn0 maxit hmax => ?_⟩
  obtain ⟨s0', x0, s1, u', -, hp, -, h4⟩ := h r hr0 hr given keep eps s0 m0 hs
  obtain ⟨sol, e, hclose⟩ := h4 tol htol n0 hn0 maxit hmax
  refine ⟨s0', x0, sol, ?_, fun t ht k => ?_⟩
  · rw [C127_constant_bounds M d spsolve lbF ubF lo hi hl hh hlo hhi hT given keep eps s0 m0 tol maxit]
    exact e
  · have hk := abs_le.1 (hclose t (by omega) (.inr k))
    have hb : (∀ l ∈ (lo k).finite?, l ≤ u' t (.inr k)) ∧ ∀ u ∈ (hi k).finite?, u' t (.inr k) ≤ u := by
      by_cases c : t + 1 < T + 1
      · exact ⟨(hp.arbitrage t c k).1, (hp.arbitrage t c k).2.1⟩
      · obtain rfl : t = T + 1 - 1 := by omega
        exact ⟨(hp.terminal k).1, (hp.terminal k).2.1⟩
    refine ⟨fun l hl => ?_, fun u hu => ?_⟩
    · have := hb.1 l (by rw [hl]; rfl)
      linarith
    · have := hb.2 u (by rw [hu]; rfl)
      linarith

/-! ### The meaning of the bounds for the path -/

/-- **C127, the last control.**  The condition on the last control that is solved under bounds holds not only if the control
repeats the previous one but also whenever it sits at one of its bounds. -/
theorem C127_terminal_condition (lb ub : Option ℝ) (x y : ℝ) (hy : (∀ l ∈ lb, l ≤ y) ∧ ∀ h ∈ ub, y ≤ h) :
    SolvesMCP lb ub x (y - x) ↔ x = y ∨ (lb = some x ∧ ∀ h ∈ ub, x ≤ h) ∨ (ub = some x ∧ ∀ l ∈ lb, l ≤ x) := by
  constructor
  · rintro ⟨h1, h2, h3, h4⟩
    rcases lt_trichotomy (y - x) 0 with h | h | h
    · exact .inr (.inr ⟨h4 h, h1⟩)
    · exact .inl (by linarith)
    · exact .inr (.inl ⟨h3 h, h2⟩)
  · rintro (rfl | ⟨h1, h2⟩ | ⟨h1, h2⟩)
    · exact ⟨hy.1, hy.2, fun h => by simp at h, fun h => by simp at h⟩
    · refine ⟨fun l hl => ?_, h2, fun _ => h1, fun h => ?_⟩
      · rw [h1] at hl; cases hl; rfl
      · have := hy.1 x h1
        linarith
    · refine ⟨h2, fun l hl => ?_, fun h => ?_, fun _ => h1⟩
      · rw [h1] at hl; cases hl; rfl
      · have := hy.2 x h1
        linarith

/-- Income falls at date 2; the control is at most the state, and should be as close to 2 as possible. -/
private noncomputable def exFrozen : PFModel ℝ Unit (Fin 1) Unit where
  g := fun _ s _ m' _ => s () + m' ()
  f := fun _ _ x _ _ _ k => x k - 2
  cS := fun _ => 1
  cX := fun _ => 1
  cE := fun _ => 0
  findSteady := fun _ => (fun _ => 1, fun _ => 1)

private noncomputable def exFrozenEps : ℕ → Unit → ℝ := fun t _ => if t = 2 then -(1 / 2) else 0

private theorem exFrozen_guess : pfGuess exFrozen 3 (fun _ => 1) = fun _ _ => 1 := by
  funext t c
  rcases c with a | b
  · change 1 * _ + 1 * _ = (1 : ℝ)
    ring
  · change 1 * _ + 1 * _ = (1 : ℝ)
    ring

private theorem exFrozen_start (eps : ℕ → Unit → ℝ) (h : eps 1 () = 0) :
    pfStart exFrozen 3 true eps none none = .ok (fun _ => 1, fun _ => 1, fun _ => 1) := by
  unfold pfStart
  rw [if_neg (by norm_num)]
  have : exFrozen.g (eps 0) (fun _ => 1) (fun _ => 1) (eps 1) = fun _ => 1 := by
    funext a
    change (1 : ℝ) + eps 1 () = 1
    rw [h, add_zero]
  change Except.ok (_, _, exFrozen.g (eps 0) (fun _ => 1) (fun _ => 1) (eps 1)) = _
  rw [this]
  rfl

/-- **C127, the disagreement.**  Bounds that depend on the state are accepted when the guess happens to be constant, and
are then applied with the states of the guess.  Here the control may not exceed the state; the bounds are accepted, there
is a path that respects them, but every path of the problem handed to the solver exceeds the bound at date 2. -/
theorem C127_guess_bounds :
    ∃ (M : PFModel ℝ Unit (Fin 1) Unit) (lbF ubF : (Unit → ℝ) → (Unit → ℝ) → Fin 1 → XF) (eps : ℕ → Unit → ℝ)
      (lb ub : ℕ → Fin 1 → Option ℝ),
      (∀ m s, lbF m s = fun _ => .fin 0) ∧ (∀ m s, ubF m s = fun _ => .fin (s ())) ∧
      (∀ d spsolve keep tol maxit, pfSolve M d spsolve (some (lbF, ubF)) false 3 true keep eps none none tol maxit
        = pfSolveNcp M d spsolve 3 true keep eps none none lb ub tol maxit) ∧
      (∃ u, IsPFMcpPath M 4 (fun _ => 1) eps lb ub u) ∧
      (∀ u, IsPFMcpPath M 4 (fun _ => 1) eps lb ub u → stOf u 2 () < ctOf u 2 0) ∧
      ∃ u, IsPFMcpPath M 4 (fun _ => 1) eps (fun _ _ => some 0) (fun t _ => some (stOf u t ())) u := by
  refine ⟨exFrozen, fun _ _ _ => .fin 0, fun _ s _ => .fin (s ()), exFrozenEps, fun _ _ => some 0, fun _ _ => some 1,
    fun _ _ => rfl, fun _ _ => rfl, fun d spsolve keep tol maxit => ?_, ?_, fun u hu => ?_, ?_⟩
  · rw [pfSolve_eq exFrozen d spsolve _ _ 3 true keep exFrozenEps none none tol maxit
      (exFrozen_start exFrozenEps (by simp [exFrozenEps]))]
    have el : alongGuess exFrozen 3 (fun _ => 1) exFrozenEps (fun _ _ _ => .fin 0) = fun _ _ => XF.fin 0 := rfl
    have eh : alongGuess exFrozen 3 (fun _ => 1) exFrozenEps (fun _ s _ => .fin (s ())) = fun _ _ => XF.fin 1 := by
      funext t k
      unfold alongGuess
      rw [exFrozen_guess]
    rw [el, eh]
    obtain ⟨h1, h2⟩ := C127_refused_iff (n := 0) 3 (fun _ _ => XF.fin 0) (fun _ _ => XF.fin 1) (fun _ _ _ => by simp)
      (fun _ _ _ => by simp)
    rw [h2 fun h3 => by
      rcases h1.1 h3 with ⟨-, k, t, -, t', -, hv⟩ | ⟨-, k, t, -, t', -, hv⟩
      · norm_num [XF.sub, XF.gt] at hv
      · norm_num [XF.sub, XF.gt] at hv]
    rfl
  · refine ⟨fun t => Sum.elim (fun _ => if t < 2 then 1 else 1 / 2) (fun _ => 1), fun a => by simp, fun t ht a => ?_,
      fun t ht b => ?_, fun b => ?_⟩
    · have : t = 0 ∨ t = 1 ∨ t = 2 := by omega
      rcases this with rfl | rfl | rfl <;> simp [exFrozen, stOf, exFrozenEps] <;> norm_num
    · refine ⟨fun l hl => ?_, fun l hl => ?_, fun h => ?_, fun h => rfl⟩
      · cases hl; simp
      · cases hl; simp
      · norm_num [exFrozen, ctOf] at h
    · refine ⟨fun l hl => ?_, fun l hl => ?_, fun h => ?_, fun h => rfl⟩
      · cases hl; simp
      · cases hl; simp
      · simp at h
  · have t1 := hu.transition 0 (by norm_num) ()
    have t2 := hu.transition 1 (by norm_num) ()
    have i := hu.initial ()
    obtain ⟨a1, a2, a3, a4⟩ := hu.arbitrage 2 (by norm_num) 0
    have hx := a2 1 rfl
    have hx2 : u 2 (.inr 0) = 1 := by
      have h : exFrozen.f (exFrozenEps 2) (stOf u 2) (ctOf u 2) (exFrozenEps 3) (stOf u 3) (ctOf u 3) 0 < 0 := by
        change u 2 (.inr 0) - 2 < 0
        linarith
      have := a4 h
      injection this with this
      exact this.symm
    change u 1 (.inl ()) = u 0 (.inl ()) + exFrozenEps 1 () at t1
    change u 2 (.inl ()) = u 1 (.inl ()) + exFrozenEps 2 () at t2
    simp only [exFrozenEps] at t1 t2
    norm_num at t1 t2
    change u 2 (.inl ()) < u 2 (.inr 0)
    rw [hx2, t2, t1, i]
    norm_num
  · refine ⟨fun t => Sum.elim (fun _ => if t < 2 then 1 else 1 / 2) (fun _ => if t < 2 then 1 else 1 / 2), fun a => by simp,
      fun t ht a => ?_, fun t ht b => ?_, fun b => ?_⟩
    · have : t = 0 ∨ t = 1 ∨ t = 2 := by omega
      rcases this with rfl | rfl | rfl <;> simp [exFrozen, stOf, exFrozenEps] <;> norm_num
    · refine ⟨fun l hl => ?_, fun l hl => ?_, fun h => ?_, fun h => rfl⟩
      · cases hl
        simp only [Sum.elim_inr]
        split_ifs <;> norm_num
      · cases hl; simp [stOf]
      · simp only [exFrozen, ctOf, Sum.elim_inr] at h
        split_ifs at h <;> norm_num at h
    · refine ⟨fun l hl => ?_, fun l hl => ?_, fun h => ?_, fun h => rfl⟩
      · cases hl; simp
      · cases hl; simp [stOf]
      · simp at h

/-- Nonvacuity of `C127_first_control_free`: the second control has a bound that depends on the state. -/
example : ∃ lbF ubF : (Unit → ℝ) → (Unit → ℝ) → Fin 2 → XF,
    (∀ m s k, lbF m s k ≠ .nan) ∧ (∀ m s k, ubF m s k ≠ .nan) ∧ (∀ m s, lbF m s 0 = .ninf) ∧ (∀ m s, ubF m s 0 = .pinf) ∧
      ∀ m s, ubF m s 1 = .fin (s ()) :=
  ⟨fun _ _ _ => .ninf, fun _ s k => if k = 0 then .pinf else .fin (s ()), fun _ _ _ => by simp,
    fun _ s k => by dsimp only; split_ifs <;> simp, fun _ _ => rfl, fun _ _ => rfl, fun _ _ => by simp⟩

/-- Bounds that vary by one are refused when the first control has finite bounds. -/
example : checkBounds (nx := 2) 1 (fun _ _ => .fin 0) (fun t k => if k = 0 then .fin 5 else .fin t)
    = .error (.exception boundsMessage) := by
  refine (C127_refused_iff 1 _ _ (fun _ _ _ => by simp) (fun _ _ k => by split_ifs <;> simp)).1.2 (.inr ⟨?_, 1, 1, le_rfl, 0, by norm_num, ?_⟩)
  · rintro (h | h)
    · have := h 0 (by norm_num); simp at this
    · have := h 0 (by norm_num); simp at this
  · simp [XF.sub, XF.gt]
    norm_num

end Dolo
