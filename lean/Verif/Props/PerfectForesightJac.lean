import Mathlib.Analysis.Calculus.FDeriv.Comp
import Mathlib.Analysis.Calculus.FDeriv.Add
import Mathlib.Analysis.Calculus.FDeriv.Linear
import Mathlib.Analysis.Calculus.FDeriv.Pi
import Mathlib.Analysis.Calculus.FDeriv.Mul
import Mathlib.Analysis.Normed.Module.FiniteDimension
import Mathlib.Tactic.FinCases
import Verif.Props.PerfectForesight

/-!
# Perfect foresight: the stacked Jacobian (C39)
-/

set_option linter.unusedSectionVars false

namespace Dolo

section entries

variable {K : Type} [Field K] {S X : Type} [DecidableEq S] [DecidableEq X]

/-- The entries of the array after `n` turns of the loop. -/
def jacLoopEntry (D : PFBlocks K S X) (n i : ℕ) (r : S ⊕ X) (j : ℕ) (c : S ⊕ X) : K :=
  match r, c with
  | .inr b, .inl a => if i < n then (if j = i then D.R_s i b a
      else if j = i + 1 then D.R_S i b a else 0) else 0
  | .inr b, .inr a => if i < n then (if j = i then D.R_x i b a
      else if j = i + 1 then D.R_X i b a else 0) else 0
  | .inl b, .inl a => if 1 ≤ i ∧ i ≤ n then (if j + 1 = i then D.SS_s j b a
      else if j = i then -eyeFn b a else 0) else 0
  | .inl b, .inr a => if 1 ≤ i ∧ i ≤ n then (if j + 1 = i then D.SS_x j b a else 0) else 0

theorem jacLoop_entries (D : PFBlocks K S X) (n : ℕ) :
    (List.range n).foldl (jacStep D) (fun _ _ _ _ => 0) = jacLoopEntry D n := by
  induction n with
  | zero =>
    funext i r j c
    rcases r with b | b <;> rcases c with a | a <;>
      simp only [jacLoopEntry] <;> rw [if_neg (by omega)] <;> rfl
  | succ n ih =>
    rw [List.range_succ, List.foldl_append, ih]
    funext i r j c
    simp only [List.foldl_cons, List.foldl_nil, jacStep, putBlk]
    rcases r with b | b <;> rcases c with a | a <;>
      simp only [jacLoopEntry, Sum.getLeft?_inl, Sum.getLeft?_inr, Sum.getRight?_inl,
        Sum.getRight?_inr, ite_self]
    all_goals
      split_ifs <;> first
        | rfl
        | (exfalso; omega)
        | (obtain ⟨rfl, rfl⟩ := ‹_ ∧ _›; rfl)
        | (obtain rfl : j = n := by omega
           rfl)

/-- First row of the states block: minus the identity at period `0`. -/
theorem detJac_initial (D : PFBlocks K S X) (N : ℕ) (a : S) (j : ℕ) (c : S ⊕ X) :
    detJac D N 0 (.inl a) j c = if j = 0 ∧ c = .inl a then -1 else 0 := by
  simp only [detJac, jacLoop_entries, putBlk, Sum.getRight?_inl, ite_self]
  rcases c with b | b
  · simp only [jacLoopEntry, Sum.getLeft?_inl, eyeFn, Sum.inl.injEq]
    by_cases h1 : j = 0 <;> by_cases h2 : a = b <;> simp [h1, h2, eq_comm]
  · simp [jacLoopEntry]

theorem detJac_transition (D : PFBlocks K S X) (N : ℕ) (hN : 2 ≤ N) (i : ℕ) (hi : i + 1 < N)
    (a : S) (j : ℕ) (c : S ⊕ X) :
    detJac D N (i + 1) (.inl a) j c =
      (if j = i then Sum.elim (D.SS_s i a) (D.SS_x i a) c else 0) -
        (if j = i + 1 ∧ c = .inl a then 1 else 0) := by
  simp only [detJac, jacLoop_entries, putBlk, Sum.getRight?_inl, ite_self, Nat.succ_ne_zero,
    false_and, if_false]
  have h1 : 1 ≤ i + 1 ∧ i + 1 ≤ N - 1 := by omega
  rcases c with b | b
  · simp only [jacLoopEntry, if_pos h1, Sum.elim_inl, Sum.inl.injEq, eyeFn, Nat.add_right_cancel_iff]
    by_cases h2 : j = i
    · subst h2; simp
    · by_cases h3 : j = i + 1 <;> by_cases h4 : b = a
      · simp [h2, h3, h4]
      · simp [h2, h3, h4, Ne.symm h4]
      · simp [h2, h3, h4]
      · simp [h2, h3]
  · simp only [jacLoopEntry, if_pos h1, Sum.elim_inr, Nat.add_right_cancel_iff]
    by_cases h2 : j = i
    · subst h2; simp
    · simp [h2]

theorem detJac_arbitrage (D : PFBlocks K S X) (N : ℕ) (hN : 2 ≤ N) (i : ℕ) (hi : i + 1 < N)
    (b : X) (j : ℕ) (c : S ⊕ X) :
    detJac D N i (.inr b) j c =
      (if j = i then Sum.elim (D.R_s i b) (D.R_x i b) c else 0) +
        (if j = i + 1 then Sum.elim (D.R_S i b) (D.R_X i b) c else 0) := by
  have h0 : ¬ (i = N - 1) := by omega
  simp only [detJac, jacLoop_entries, putBlk, Sum.getLeft?_inr, ite_self, h0,
    false_and, if_false]
  have h1 : i < N - 1 := by omega
  rcases c with a | a <;>
  · simp only [jacLoopEntry, if_pos h1, Sum.elim_inl, Sum.elim_inr]
    by_cases h2 : j = i
    · subst h2; simp
    · by_cases h3 : j = i + 1 <;> simp [h2, h3]

theorem detJac_terminal (D : PFBlocks K S X) (N : ℕ) (hN : 2 ≤ N) (b : X) (j : ℕ)
    (c : S ⊕ X) :
    detJac D N (N - 1) (.inr b) j c =
      (if j = N - 2 ∧ c = .inr b then 1 else 0) - (if j = N - 1 ∧ c = .inr b then 1 else 0) := by
  simp only [detJac, jacLoop_entries, putBlk, Sum.getLeft?_inr, ite_self]
  have h1 : ¬ (N - 1 < N - 1) := by omega
  have h2 : N - 2 ≠ N - 1 := by omega
  rcases c with a | a
  · simp [jacLoopEntry, h1]
  · simp only [jacLoopEntry, if_neg h1, Sum.getRight?_inr, eyeFn, Sum.inr.injEq, true_and]
    by_cases h3 : j = N - 2
    · subst h3
      by_cases h4 : b = a <;> simp [h2, h4, eq_comm]
    · by_cases h5 : j = N - 1
      · subst h5
        by_cases h4 : b = a <;> simp [h2.symm, h4, eq_comm]
      · simp [h3, h5]

end entries

/-! ## Derivatives -/

/-- `F` is (Fréchet) differentiable at `p` and its partial derivatives there are `d`. -/
def IsGrad {ι : Type} [Fintype ι] (F : (ι → ℝ) → ℝ) (p d : ι → ℝ) : Prop :=
  ∃ L : (ι → ℝ) →L[ℝ] ℝ, HasFDerivAt F L p ∧ ∀ h, L h = ∑ c, d c * h c

section grad

variable {ι κ : Type} [Fintype ι] [Fintype κ] [DecidableEq κ]

theorem IsGrad.coord (p : κ → ℝ) (k : κ) :
    IsGrad (fun u : κ → ℝ => u k) p fun k' => if k' = k then 1 else 0 :=
  ⟨ContinuousLinearMap.proj k, (ContinuousLinearMap.proj (R := ℝ) (φ := fun _ : κ => ℝ) k).hasFDerivAt,
    fun h => by simp⟩

theorem IsGrad.sub {F G : (κ → ℝ) → ℝ} {p d e : κ → ℝ} (hF : IsGrad F p d) (hG : IsGrad G p e) :
    IsGrad (fun u => F u - G u) p fun k => d k - e k := by
  obtain ⟨L, h1, h2⟩ := hF
  obtain ⟨L', h1', h2'⟩ := hG
  exact ⟨L - L', h1.sub h1', fun h => by simp [h2, h2', sub_mul]⟩

theorem IsGrad.const (p : κ → ℝ) (v : ℝ) : IsGrad (fun _ : κ → ℝ => v) p fun _ => 0 :=
  ⟨0, hasFDerivAt_const v p, fun h => by simp⟩

/-- Renaming and selecting coordinates. -/
theorem IsGrad.comp (e : ι → κ) {F : (ι → ℝ) → ℝ} {p : κ → ℝ} {d : ι → ℝ}
    (hF : IsGrad F (fun c => p (e c)) d) :
    IsGrad (fun u : κ → ℝ => F fun c => u (e c)) p
      fun k => ∑ c, if e c = k then d c else 0 := by
  obtain ⟨L, h1, h2⟩ := hF
  let P : (κ → ℝ) →L[ℝ] (ι → ℝ) :=
    ContinuousLinearMap.pi fun c => ContinuousLinearMap.proj (e c)
  refine ⟨L.comp P, ?_, ?_⟩
  · exact HasFDerivAt.comp p (g := F) (f := P) h1 P.hasFDerivAt
  · intro h
    rw [ContinuousLinearMap.comp_apply, h2]
    simp only [P, Finset.sum_mul]
    rw [Finset.sum_comm]
    refine Finset.sum_congr rfl fun c _ => ?_
    simp [ite_mul]

end grad

section C39

variable {S X E : Type} [Fintype S] [Fintype X] [DecidableEq S] [DecidableEq X]

/-- The path held by the stacked vector of unknowns. -/
def pathOf (N : ℕ) (u : Fin N × (S ⊕ X) → ℝ) : ℕ → S ⊕ X → ℝ :=
  fun i c => if h : i < N then u (⟨i, h⟩, c) else 0

/-- The blocks `D` are the partial derivatives of the transition and arbitrage functions along
the path: what `diff=True` is documented to return. -/
structure BlocksAreDerivs (g : (E → ℝ) → (S → ℝ) → (X → ℝ) → (E → ℝ) → S → ℝ)
    (f : (E → ℝ) → (S → ℝ) → (X → ℝ) → (E → ℝ) → (S → ℝ) → (X → ℝ) → X → ℝ)
    (N : ℕ) (guess : ℕ → S ⊕ X → ℝ) (m : ℕ → E → ℝ) (D : PFBlocks ℝ S X) : Prop where
  transition : ∀ i, i + 1 < N → ∀ a, IsGrad
    (fun z : S ⊕ X → ℝ => g (m i) (fun s => z (.inl s)) (fun x => z (.inr x)) (m (i + 1)) a)
    (guess i) (Sum.elim (D.SS_s i a) (D.SS_x i a))
  arbitrage : ∀ i, i + 1 < N → ∀ b, IsGrad
    (fun z : (S ⊕ X) ⊕ (S ⊕ X) → ℝ => f (m i) (fun s => z (.inl (.inl s)))
      (fun x => z (.inl (.inr x))) (m (i + 1)) (fun s => z (.inr (.inl s)))
      (fun x => z (.inr (.inr x))) b)
    (Sum.elim (guess i) (guess (i + 1)))
    (Sum.elim (Sum.elim (D.R_s i b) (D.R_x i b)) (Sum.elim (D.R_S i b) (D.R_X i b)))

/-- **C39.** For every horizon `N ≥ 2`, if the blocks returned by the model functions are their
partial derivatives along the path, the stacked array of blocks is the derivative of the
stacked residual: for every period `i` and every equation `r`, the residual is differentiable as
a function of the whole stacked path, and its derivative with respect to variable `c` of period
`j` is the entry `[i, r, j, c]`. -/
theorem C39_jacobian_is_derivative
    (g : (E → ℝ) → (S → ℝ) → (X → ℝ) → (E → ℝ) → S → ℝ)
    (f : (E → ℝ) → (S → ℝ) → (X → ℝ) → (E → ℝ) → (S → ℝ) → (X → ℝ) → X → ℝ)
    (N : ℕ) (hN : 2 ≤ N) (u : Fin N × (S ⊕ X) → ℝ) (start : S → ℝ) (m : ℕ → E → ℝ)
    (D : PFBlocks ℝ S X) (hD : BlocksAreDerivs g f N (pathOf N u) m D) :
    ∃ res : (Fin N × (S ⊕ X) → ℝ) → ℕ → S ⊕ X → ℝ,
      (∀ v, detResidual g f N (pathOf N v) start m = .ok (res v)) ∧
      ∀ i r, i < N →
        IsGrad (fun v => res v i r) u fun jc => detJac D N i r jc.1 jc.2 := by
  choose res e h1 h2 h3 h4 using
    fun v : Fin N × (S ⊕ X) → ℝ => detResidual_entries g f N hN (pathOf N v) start m
  refine ⟨res, e, ?_⟩
  intro i r hi
  rcases r with a | b
  · rcases i with _ | i
    · have hf : (fun v => res v 0 (.inl a)) =
          fun v => start a - v (⟨0, hi⟩, .inl a) := by
        funext v; rw [h1]; simp [pathOf, hi]
      rw [hf]
      convert (IsGrad.const u (start a)).sub (IsGrad.coord u (⟨0, hi⟩, .inl a)) using 1
      funext ⟨j, c⟩
      rw [detJac_initial D N]
      by_cases c1 : j = ⟨0, hi⟩
      · subst c1; by_cases c2 : c = .inl a <;> simp [c2]
      · have : (j : ℕ) ≠ 0 := fun h => c1 (Fin.ext h)
        simp [c1, this]
    · have hi' : i < N := by omega
      have hf : (fun v => res v (i + 1) (.inl a)) =
          fun v : Fin N × (S ⊕ X) → ℝ => g (m i) (fun s => v (⟨i, hi'⟩, .inl s))
            (fun x => v (⟨i, hi'⟩, .inr x)) (m (i + 1)) a - v (⟨i + 1, hi⟩, .inl a) := by
        funext v; rw [h2 v i a hi]
        have e1 : stOf (pathOf N v) i = fun s => v (⟨i, hi'⟩, .inl s) := by
          funext s; simp [stOf, pathOf, hi']
        have e2 : ctOf (pathOf N v) i = fun s => v (⟨i, hi'⟩, .inr s) := by
          funext s; simp [ctOf, pathOf, hi']
        rw [e1, e2]
        simp [pathOf, hi]
      rw [hf]
      have hg := hD.transition i hi a
      have hp : pathOf N u i = fun c => u (⟨i, hi'⟩, c) := by
        funext c; simp [pathOf, hi']
      rw [hp] at hg
      convert (IsGrad.comp (fun c => ((⟨i, hi'⟩ : Fin N), c)) hg).sub
        (IsGrad.coord u (⟨i + 1, hi⟩, .inl a)) using 1
      funext ⟨j, c⟩
      rw [detJac_transition D N hN i hi]
      congr 1
      · by_cases c1 : j = ⟨i, hi'⟩
        · subst c1; simp
        · have : (j : ℕ) ≠ i := fun h => c1 (Fin.ext h)
          simp [Ne.symm c1, this]
      · congr 1
        simp [Fin.ext_iff]
  · by_cases c0 : i + 1 < N
    · have hf : (fun v => res v i (.inr b)) =
          fun v : Fin N × (S ⊕ X) → ℝ => f (m i) (fun s => v (⟨i, hi⟩, .inl s))
            (fun x => v (⟨i, hi⟩, .inr x)) (m (i + 1)) (fun s => v (⟨i + 1, c0⟩, .inl s))
            (fun x => v (⟨i + 1, c0⟩, .inr x)) b := by
        funext v; rw [h3 v i b c0]
        have e1 : stOf (pathOf N v) i = fun s => v (⟨i, hi⟩, .inl s) := by
          funext s; simp [stOf, pathOf, hi]
        have e2 : ctOf (pathOf N v) i = fun s => v (⟨i, hi⟩, .inr s) := by
          funext s; simp [ctOf, pathOf, hi]
        have e3 : stOf (pathOf N v) (i + 1) = fun s => v (⟨i + 1, c0⟩, .inl s) := by
          funext s; simp [stOf, pathOf, c0]
        have e4 : ctOf (pathOf N v) (i + 1) = fun s => v (⟨i + 1, c0⟩, .inr s) := by
          funext s; simp [ctOf, pathOf, c0]
        rw [e1, e2, e3, e4]
      rw [hf]
      have hg := hD.arbitrage i c0 b
      let q : (S ⊕ X) ⊕ (S ⊕ X) → Fin N × (S ⊕ X) :=
        Sum.elim (fun c => (⟨i, hi⟩, c)) (fun c => (⟨i + 1, c0⟩, c))
      have hp : Sum.elim (pathOf N u i) (pathOf N u (i + 1)) = fun c => u (q c) := by
        funext c; rcases c with c | c <;> simp [pathOf, hi, c0, q]
      rw [hp] at hg
      have key : IsGrad (fun v : Fin N × (S ⊕ X) → ℝ => f (m i) (fun s => v (⟨i, hi⟩, .inl s))
            (fun x => v (⟨i, hi⟩, .inr x)) (m (i + 1)) (fun s => v (⟨i + 1, c0⟩, .inl s))
            (fun x => v (⟨i + 1, c0⟩, .inr x)) b) u _ := IsGrad.comp q hg
      convert key using 1
      funext ⟨j, c⟩
      rw [detJac_arbitrage D N hN i c0, Fintype.sum_sum_type]
      congr 1
      · by_cases c1 : j = ⟨i, hi⟩
        · subst c1; simp [q]
        · have : (j : ℕ) ≠ i := fun h => c1 (Fin.ext h)
          simp [Ne.symm c1, this, q]
      · by_cases c1 : j = ⟨i + 1, c0⟩
        · subst c1; simp [q]
        · have : (j : ℕ) ≠ i + 1 := fun h => c1 (Fin.ext h)
          simp [Ne.symm c1, this, q]
    · obtain rfl : i = N - 1 := by omega
      have hi2 : N - 2 < N := by omega
      have hf : (fun v => res v (N - 1) (.inr b)) =
          fun v => v (⟨N - 2, hi2⟩, .inr b) - v (⟨N - 1, hi⟩, .inr b) := by
        funext v; rw [h4]; simp [pathOf, hi, hi2]
      rw [hf]
      convert (IsGrad.coord u (⟨N - 2, hi2⟩, .inr b)).sub
        (IsGrad.coord u (⟨N - 1, hi⟩, .inr b)) using 1
      funext ⟨j, c⟩
      rw [detJac_terminal D N hN]
      congr 1 <;> congr 1 <;> simp [Fin.ext_iff]

/-- Non-vacuity of `C39`, at the smallest horizon `N = 2`, with a nonlinear transition
`S = s² + x` and arbitrage equation `x - X · S`. -/
example : ∃ D, BlocksAreDerivs (S := Unit) (X := Unit) (E := Unit)
    (fun _ s x _ _ => s () * s () + x ()) (fun _ _ x _ S X _ => x () - X () * S ()) 2
    (pathOf 2 fun ic => Sum.elim (fun _ => (ic.1 : ℝ) + 1) (fun _ => 3) ic.2) (fun _ _ => 0) D ∧
    D.SS_s 0 () () = 2 ∧ D.R_X 0 () () = -2 := by
  refine ⟨⟨fun _ _ _ => 2, fun _ _ _ => 1, fun _ _ _ => 0, fun _ _ _ => 1,
    fun _ _ _ => -3, fun _ _ _ => -2⟩, ⟨?_, ?_⟩, rfl, rfl⟩
  · intro i hi a
    obtain rfl : i = 0 := by omega
    have h1 : HasFDerivAt (fun z : Unit ⊕ Unit → ℝ => z (.inl ()))
        (ContinuousLinearMap.proj (R := ℝ) (φ := fun _ : Unit ⊕ Unit => ℝ) (.inl ()))
        (pathOf 2 (fun ic => Sum.elim (fun _ => (ic.1 : ℝ) + 1) (fun _ => 3) ic.2) 0) :=
      (ContinuousLinearMap.proj (R := ℝ) (φ := fun _ : Unit ⊕ Unit => ℝ) (.inl ())).hasFDerivAt
    have h2 : HasFDerivAt (fun z : Unit ⊕ Unit → ℝ => z (.inr ()))
        (ContinuousLinearMap.proj (R := ℝ) (φ := fun _ : Unit ⊕ Unit => ℝ) (.inr ()))
        (pathOf 2 (fun ic => Sum.elim (fun _ => (ic.1 : ℝ) + 1) (fun _ => 3) ic.2) 0) :=
      (ContinuousLinearMap.proj (R := ℝ) (φ := fun _ : Unit ⊕ Unit => ℝ) (.inr ())).hasFDerivAt
    refine ⟨_, (h1.mul h1).add h2, ?_⟩
    intro h
    simp [pathOf]
    ring
  · intro i hi a
    obtain rfl : i = 0 := by omega
    let p : (Unit ⊕ Unit) ⊕ (Unit ⊕ Unit) → ℝ := Sum.elim
      (pathOf 2 (fun ic => Sum.elim (fun _ => (ic.1 : ℝ) + 1) (fun _ => 3) ic.2) 0)
      (pathOf 2 (fun ic => Sum.elim (fun _ => (ic.1 : ℝ) + 1) (fun _ => 3) ic.2) (0 + 1))
    have hc : ∀ k, HasFDerivAt (fun z : (Unit ⊕ Unit) ⊕ (Unit ⊕ Unit) → ℝ => z k)
        (ContinuousLinearMap.proj (R := ℝ) (φ := fun _ : (Unit ⊕ Unit) ⊕ (Unit ⊕ Unit) => ℝ) k)
        p := fun k => (ContinuousLinearMap.proj (R := ℝ)
          (φ := fun _ : (Unit ⊕ Unit) ⊕ (Unit ⊕ Unit) => ℝ) k).hasFDerivAt
    refine ⟨_, (hc (.inl (.inr ()))).sub ((hc (.inr (.inr ()))).mul (hc (.inr (.inl ())))), ?_⟩
    intro h
    simp [p, pathOf]
    ring

end C39

end Dolo
