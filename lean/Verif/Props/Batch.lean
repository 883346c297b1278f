import Mathlib.Tactic.Ring
import Mathlib.Tactic.NormNum
import Mathlib.Logic.Function.Iterate
import Mathlib.Data.Nat.Find
import Verif.Props.Newton
import Verif.Props.Gauss
import Verif.Lemmas.Relabel

/-!
# C140: solving several problems at once
-/

set_option linter.unusedSectionVars false

namespace Dolo

section
variable {K : Type} [Field K] [LinearOrder K] [IsStrictOrderedRing K]

/-- A problem per point: residuals and Jacobian as functions of the unknowns of the point. -/
abbrev PointFun (K : Type) : Type := (ℕ → K) → (ℕ → K) × (ℕ → ℕ → K)

/-- The problems of all points together, as `newton` receives them. -/
def batchFun (F : ℕ → PointFun K) : (ℕ → ℕ → K) → (ℕ → ℕ → K) × (ℕ → ℕ → ℕ → K) :=
  fun x => (fun p => (F p (x p)).1, fun p => (F p (x p)).2)

/-- One problem alone (an array with one row). -/
def soloFun (F : PointFun K) : (ℕ → ℕ → K) → (ℕ → ℕ → K) × (ℕ → ℕ → ℕ → K) := batchFun fun _ => F

/-- The `k`-th Newton iterate of the problem alone, from `z`. -/
def soloIter (n : ℕ) (F : PointFun K) (z : ℕ → K) (k : ℕ) : ℕ → K :=
  ((serialProblem 1 n (soloFun F)).next^[k] fun _ => z) 0

/-- The largest residual of one problem. -/
def soloNorm (n : ℕ) (F : PointFun K) (z : ℕ → K) : K := maxAbs 1 n fun _ => (F z).1

/-- The full Newton step of one problem. -/
def soloFull (n : ℕ) (F : PointFun K) (z : ℕ → K) : ℕ → K :=
  fun i => z i - serialStep 1 n (fun _ => (F z).2) (fun _ => (F z).1) 0 i

/-- The full steps of the problem alone, from `z`, reduce its residual as long as it is not zero (and its Jacobians are nonsingular). -/
def FullSteps (n : ℕ) (F : PointFun K) (z : ℕ → K) (maxit : ℕ) : Prop :=
  ∀ k < maxit, Nonsingular n (F (soloIter n F z k)).2 ∧ (soloNorm n F (soloIter n F z k) = 0 ∨
    soloNorm n F (soloFull n F (soloIter n F z k)) < soloNorm n F (soloIter n F z k))

/-- The problem has `n` unknowns. -/
def HasUnknowns (n : ℕ) (F : PointFun K) : Prop := ∀ z z' : ℕ → K, (∀ i < n, z i = z' i) → F z = F z'

/-! ### Lemmas -/

theorem maxAbs_lt_iff (N n : ℕ) (v : ℕ → ℕ → K) (c : K) (hc : 0 < c) :
    maxAbs N n v < c ↔ ∀ p < N, ∀ i < n, |v p i| < c := by
  have aux : ∀ (l : List K) (a : K), l.foldl max a < c ↔ a < c ∧ ∀ b ∈ l, b < c := by
    intro l
    induction l with
    | nil => intro a; simp
    | cons b l ih =>
      intro a
      rw [List.foldl_cons, ih]
      simp [max_lt_iff, and_assoc]
  unfold maxAbs
  rw [aux]
  simp only [hc, true_and, List.mem_flatMap, List.mem_range, List.mem_map]
  constructor
  · intro h p hp i hi
    exact h _ ⟨p, hp, i, hi, rfl⟩
  · rintro h b ⟨p, hp, i, hi, rfl⟩
    exact h p hp i hi

theorem soloNorm_lt_iff (n : ℕ) (F : PointFun K) (z : ℕ → K) (c : K) (hc : 0 < c) :
    soloNorm n F z < c ↔ ∀ i < n, |(F z).1 i| < c := by
  unfold soloNorm
  rw [maxAbs_lt_iff _ _ _ _ hc]
  exact ⟨fun h i hi => h 0 (by omega) i hi, fun h _ _ i hi => h i hi⟩

theorem soloNorm_le_iff (n : ℕ) (F : PointFun K) (z : ℕ → K) (c : K) (hc : 0 ≤ c) :
    soloNorm n F z ≤ c ↔ ∀ i < n, |(F z).1 i| ≤ c := by
  unfold soloNorm
  rw [maxAbs_le_iff _ _ _ _ hc]
  exact ⟨fun h i hi => h 0 (by omega) i hi, fun h _ _ i hi => h i hi⟩

theorem soloNorm_nonneg (n : ℕ) (F : PointFun K) (z : ℕ → K) : 0 ≤ soloNorm n F z := maxAbs_nonneg _ _ _

theorem batchNorm_lt_iff (N n : ℕ) (F : ℕ → PointFun K) (x : ℕ → ℕ → K) (c : K) (hc : 0 < c) :
    maxAbs N n (batchFun F x).1 < c ↔ ∀ p < N, soloNorm n (F p) (x p) < c := by
  rw [maxAbs_lt_iff _ _ _ _ hc]
  refine forall₂_congr fun p _ => ?_
  rw [soloNorm_lt_iff _ _ _ _ hc]
  rfl

theorem soloNorm_le_batch (N n : ℕ) (F : ℕ → PointFun K) (x : ℕ → ℕ → K) {p : ℕ} (hp : p < N) :
    soloNorm n (F p) (x p) ≤ maxAbs N n (batchFun F x).1 := by
  rw [soloNorm_le_iff _ _ _ _ (maxAbs_nonneg _ _ _)]
  exact (maxAbs_le_iff N n (batchFun F x).1 _ (maxAbs_nonneg _ _ _)).1 le_rfl p hp

/-- The linear systems are solved point by point. -/
theorem serialStep_point_eq (N n : ℕ) (dv : ℕ → ℕ → ℕ → K) (v : ℕ → ℕ → K) {p : ℕ} (hp : p < N) :
    serialStep N n dv v p = serialStep 1 n (fun _ => dv p) (fun _ => v p) 0 := by
  simp [serialStep, serialSolve, hp]

/-- The first trial point is accepted. -/
theorem next_full (P : NewtonProblem K (ℕ → ℕ → K) (ℕ → ℕ → K) (ℕ → ℕ → ℕ → K) (ℕ → ℕ → K)) (x : ℕ → ℕ → K)
    (h : P.norm (P.f (P.trial x (P.solve (P.f x).2 (P.f x).1) 0)).1 < P.norm (P.f x).1) :
    P.next x = P.trial x (P.solve (P.f x).2 (P.f x).1) 0 := by
  have e : P.next x = P.trial x (P.solve (P.f x).2 (P.f x).1) (backSteps (fun b => decide
    (P.norm (P.f (P.trial x (P.solve (P.f x).2 (P.f x).1) b)).1 < P.norm (P.f x).1)) 29 0) := rfl
  rw [e]
  simp [backSteps, h]

theorem batch_trial_zero (N n : ℕ) (F : ℕ → PointFun K) (x : ℕ → ℕ → K) {p : ℕ} (hp : p < N) :
    (serialProblem N n (batchFun F)).trial x (serialStep N n (batchFun F x).2 (batchFun F x).1) 0 p
      = soloFull n (F p) (x p) := by
  funext i
  simp only [NewtonProblem.trial, serialProblem, pow_zero, div_one, mul_one]
  rw [serialStep_point_eq N n _ _ hp]
  rfl

/-- At a solution the step is zero. -/
theorem solo_zero_step (n : ℕ) (F : PointFun K) (z : ℕ → K) (hns : Nonsingular n (F z).2) (h0 : soloNorm n F z = 0) :
    ∀ i < n, serialStep 1 n (fun _ => (F z).2) (fun _ => (F z).1) 0 i = 0 := by
  have hs := serialStep_point (N := 1) (n := n) (dv := fun _ => (F z).2) (v := fun _ => (F z).1) (p := 0) (by omega) hns
  refine hns _ fun i hi => ?_
  rw [hs i hi]
  have := (soloNorm_le_iff n F z 0 le_rfl).1 h0.le i hi
  exact abs_nonpos_iff.1 this

/-- One step of the problem alone. -/
theorem solo_step (n : ℕ) (F : PointFun K) (z : ℕ → K) (hns : Nonsingular n (F z).2)
    (h : soloNorm n F z = 0 ∨ soloNorm n F (soloFull n F z) < soloNorm n F z) :
    ∀ i < n, (serialProblem 1 n (soloFun F)).next (fun _ => z) 0 i = soloFull n F z i := by
  rcases h with h0 | h
  · intro i hi
    have e : ∃ b, (serialProblem 1 n (soloFun F)).next (fun _ => z)
        = (serialProblem 1 n (soloFun F)).trial (fun _ => z) (serialStep 1 n (fun _ => (F z).2) (fun _ => (F z).1)) b :=
      ⟨_, rfl⟩
    obtain ⟨b, hb⟩ := e
    rw [hb]
    simp only [NewtonProblem.trial, serialProblem, soloFull]
    rw [solo_zero_step n F z hns h0 i hi]
    ring
  · intro i _
    have e := next_full (serialProblem 1 n (soloFun F)) (fun _ => z) (by
      change maxAbs 1 n _ < maxAbs 1 n _
      have hz := batch_trial_zero 1 n (fun _ => F) (fun _ => z) (p := 0) (by omega)
      have : maxAbs 1 n ((serialProblem 1 n (soloFun F)).f ((serialProblem 1 n (soloFun F)).trial (fun _ => z)
          ((serialProblem 1 n (soloFun F)).solve ((serialProblem 1 n (soloFun F)).f fun _ => z).2
            ((serialProblem 1 n (soloFun F)).f fun _ => z).1) 0)).1 = soloNorm n F (soloFull n F z) := by
        unfold soloNorm
        have h2 : ∀ (v w : ℕ → ℕ → K), v 0 = w 0 → maxAbs 1 n v = maxAbs 1 n w := by
          intro v w hvw
          simp [maxAbs, hvw]
        apply h2
        change (F ((serialProblem 1 n (soloFun F)).trial (fun _ => z) _ 0 0)).1 = (F (soloFull n F z)).1
        rw [← hz]
        rfl
      rw [this]
      exact h)
    rw [e]
    have hz := batch_trial_zero 1 n (fun _ => F) (fun _ => z) (p := 0) (by omega)
    exact congrFun hz i

/-- What the Newton loop does. -/
theorem newtonLoop_iterates {X V J D : Type} (P : NewtonProblem K X V J D) (tol : K) (k : ℕ) : ∀ (it : ℕ) (x : X),
    ∃ j ≤ k, (newtonLoop P tol k it x).it = it + j ∧ (newtonLoop P tol k it x).x = P.next^[j] x ∧
      (∀ l < j, ¬ P.norm (P.f (P.next^[l] x)).1 < tol) ∧
      (((newtonLoop P tol k it x).warned = false ∧ j < k ∧ P.norm (P.f (P.next^[j] x)).1 < tol) ∨
        ((newtonLoop P tol k it x).warned = true ∧ j = k)) := by
  induction k with
  | zero => intro it x; exact ⟨0, le_rfl, rfl, rfl, fun l hl => absurd hl (by omega), .inr ⟨rfl, rfl⟩⟩
  | succ k ih =>
    intro it x
    rw [newtonLoop]
    by_cases h : P.norm (P.f x).1 < tol
    · rw [if_pos h]
      exact ⟨0, by omega, rfl, rfl, fun l hl => absurd hl (by omega), .inl ⟨rfl, by omega, h⟩⟩
    · rw [if_neg h]
      obtain ⟨j, h1, h2, h3, h4, h5⟩ := ih (it + 1) (P.next x)
      refine ⟨j + 1, by omega, by omega, by rw [h3, Function.iterate_succ_apply], fun l hl => ?_, ?_⟩
      · rcases l with _ | l
        · exact h
        · rw [Function.iterate_succ_apply]
          exact h4 l (by omega)
      · rcases h5 with ⟨a, b, c⟩ | ⟨a, b⟩
        · exact .inl ⟨a, by omega, by rwa [Function.iterate_succ_apply]⟩
        · exact .inr ⟨a, by omega⟩

theorem HasUnknowns.full {n : ℕ} {F : PointFun K} (h : HasUnknowns n F) {z z' : ℕ → K} (e : ∀ i < n, z i = z' i) :
    ∀ i < n, soloFull n F z i = soloFull n F z' i := by
  intro i hi
  unfold soloFull
  rw [h z z' e, e i hi]

theorem HasUnknowns.norm {n : ℕ} {F : PointFun K} (h : HasUnknowns n F) {z z' : ℕ → K} (e : ∀ i < n, z i = z' i) :
    soloNorm n F z = soloNorm n F z' := by
  unfold soloNorm
  rw [h z z' e]

/-- The iterates of the problem alone. -/
theorem soloIter_succ {n : ℕ} {F : PointFun K} (hF : HasUnknowns n F) {z : ℕ → K} {maxit : ℕ} (hs : FullSteps n F z maxit)
    {k : ℕ} (hk : k < maxit) : ∀ i < n, soloIter n F z (k + 1) i = soloFull n F (soloIter n F z k) i := by
  obtain ⟨h1, h2⟩ := hs k hk
  have e : soloIter n F z (k + 1) = (serialProblem 1 n (soloFun F)).next
      ((serialProblem 1 n (soloFun F)).next^[k] fun _ => z) 0 := by
    unfold soloIter
    rw [Function.iterate_succ_apply']
  -- the step only reads row zero
  have row : ∀ y y' : ℕ → ℕ → K, y 0 = y' 0 → (serialProblem 1 n (soloFun F)).next y 0
      = (serialProblem 1 n (soloFun F)).next y' 0 := by
    intro y y' hy
    have h3 : ∀ b, (serialProblem 1 n (soloFun F)).trial y (serialStep 1 n (soloFun F y).2 (soloFun F y).1) b 0
        = (serialProblem 1 n (soloFun F)).trial y' (serialStep 1 n (soloFun F y').2 (soloFun F y').1) b 0 := by
      intro b
      funext i
      simp only [NewtonProblem.trial, serialProblem]
      rw [serialStep_point_eq 1 n _ _ (by omega : 0 < 1), serialStep_point_eq 1 n (soloFun F y').2 _ (by omega : 0 < 1)]
      simp only [soloFun, batchFun, hy]
    have h4 : ∀ v w : ℕ → ℕ → K, v 0 = w 0 → maxAbs 1 n v = maxAbs 1 n w := by
      intro v w hvw
      simp [maxAbs, hvw]
    have hb : (fun b => decide (maxAbs 1 n (soloFun F ((serialProblem 1 n (soloFun F)).trial y
          (serialStep 1 n (soloFun F y).2 (soloFun F y).1) b)).1 < maxAbs 1 n (soloFun F y).1))
        = fun b => decide (maxAbs 1 n (soloFun F ((serialProblem 1 n (soloFun F)).trial y'
          (serialStep 1 n (soloFun F y').2 (soloFun F y').1) b)).1 < maxAbs 1 n (soloFun F y').1) := by
      funext b
      rw [h4 (soloFun F y).1 (soloFun F y').1 (by simp [soloFun, batchFun, hy]),
        h4 (soloFun F ((serialProblem 1 n (soloFun F)).trial y (serialStep 1 n (soloFun F y).2 (soloFun F y).1) b)).1
          (soloFun F ((serialProblem 1 n (soloFun F)).trial y' (serialStep 1 n (soloFun F y').2 (soloFun F y').1) b)).1
          (congrArg (fun q => (F q).1) (h3 b))]
    have e1 : ∀ y, (serialProblem 1 n (soloFun F)).next y = (serialProblem 1 n (soloFun F)).trial y
        (serialStep 1 n (soloFun F y).2 (soloFun F y).1) (backSteps (fun b => decide (maxAbs 1 n
          (soloFun F ((serialProblem 1 n (soloFun F)).trial y (serialStep 1 n (soloFun F y).2 (soloFun F y).1) b)).1
            < maxAbs 1 n (soloFun F y).1)) 29 0) := fun _ => rfl
    rw [e1, e1, hb]
    exact h3 _
  intro i hi
  rw [e, row _ (fun _ => soloIter n F z k) rfl]
  exact solo_step n F _ h1 h2 i hi

/-- The residual of the problem alone does not grow. -/
theorem soloNorm_antitone {n : ℕ} {F : PointFun K} (hF : HasUnknowns n F) {z : ℕ → K} {maxit : ℕ} (hs : FullSteps n F z maxit) :
    ∀ k l, k ≤ l → l ≤ maxit → soloNorm n F (soloIter n F z l) ≤ soloNorm n F (soloIter n F z k) := by
  intro k l hkl
  induction l, hkl using Nat.le_induction with
  | base => intro _; exact le_rfl
  | succ l hl ih =>
    intro h
    refine le_trans ?_ (ih (by omega))
    rw [hF.norm (soloIter_succ hF hs (by omega))]
    obtain ⟨h1, h2 | h2⟩ := hs l (by omega)
    · have e : ∀ i < n, soloFull n F (soloIter n F z l) i = soloIter n F z l i := by
        intro i hi
        unfold soloFull
        rw [solo_zero_step n F _ h1 h2 i hi, sub_zero]
      exact (hF.norm e).le
    · exact h2.le

/-! ### The theorems -/

/-- **C140, linear systems.**  The solution at a point depends on the system at this point only. -/
theorem C140_linear (N N' n : ℕ) (dv dv' : ℕ → ℕ → ℕ → K) (v v' : ℕ → ℕ → K) (p p' : ℕ) (hp : p < N) (hp' : p' < N')
    (hd : dv p = dv' p') (hv : v p = v' p') : serialStep N n dv v p = serialStep N' n dv' v' p' := by
  rw [serialStep_point_eq N n dv v hp, serialStep_point_eq N' n dv' v' hp', hd, hv]

/-- **C140 (partial), Newton.**  `N ≥ 1` problems are solved together from the points `x`.  If for each of them alone the
full Newton steps reduce the residual, then together they need as many iterations as the slowest of them; there is a
warning if and only if one of them alone gives one; and each point ends at an iterate of its own problem, at least as good as the
one found alone.  Missing: problems that need smaller steps, where this is false, see `C140_newton_fails`. -/
theorem C140_newton_partial {N n : ℕ} (hN : 0 < N) (F : ℕ → PointFun K) (hF : ∀ p < N, HasUnknowns n (F p)) (tol : K) (htol : 0 < tol)
    (maxit : ℕ) (x : ℕ → ℕ → K) (hs : ∀ p < N, FullSteps n (F p) (x p) maxit) :
    (∀ p < N, (newton (serialProblem 1 n (soloFun (F p))) tol maxit fun _ => x p).it
        ≤ (newton (serialProblem N n (batchFun F)) tol maxit x).it) ∧
    (∃ p < N, (newton (serialProblem N n (batchFun F)) tol maxit x).it
        = (newton (serialProblem 1 n (soloFun (F p))) tol maxit fun _ => x p).it) ∧
    ((newton (serialProblem N n (batchFun F)) tol maxit x).warned = true ↔
      ∃ p < N, (newton (serialProblem 1 n (soloFun (F p))) tol maxit fun _ => x p).warned = true) ∧
    ∀ p < N, (∀ i < n, (newton (serialProblem N n (batchFun F)) tol maxit x).x p i
        = soloIter n (F p) (x p) (newton (serialProblem N n (batchFun F)) tol maxit x).it i) ∧
      soloNorm n (F p) ((newton (serialProblem N n (batchFun F)) tol maxit x).x p)
        ≤ soloNorm n (F p) ((newton (serialProblem 1 n (soloFun (F p))) tol maxit fun _ => x p).x 0) := by
  set P := serialProblem N n (batchFun F) with hP
  -- the iterates together are the iterates alone, up to the first date when all are solved
  have traj : ∀ k ≤ maxit, (∀ l < k, ¬ P.norm (P.f (P.next^[l] x)).1 < tol) →
      ∀ p < N, ∀ i < n, (P.next^[k] x) p i = soloIter n (F p) (x p) k i := by
    intro k
    induction k with
    | zero => intro _ _ p _ i _; rfl
    | succ k ih =>
      intro hk hl p hp i hi
      have ih := ih (by omega) fun l h => hl l (by omega)
      have hbig : 0 < P.norm (P.f (P.next^[k] x)).1 := lt_of_lt_of_le htol (not_lt.1 (hl k (by omega)))
      rw [Function.iterate_succ_apply']
      have hfull : P.norm (P.f (P.trial (P.next^[k] x) (P.solve (P.f (P.next^[k] x)).2 (P.f (P.next^[k] x)).1) 0)).1
          < P.norm (P.f (P.next^[k] x)).1 := by
        change maxAbs N n (batchFun F _).1 < _
        rw [batchNorm_lt_iff _ _ _ _ _ hbig]
        intro q hq
        have e1 := batch_trial_zero N n F (P.next^[k] x) hq
        change soloNorm n (F q) ((serialProblem N n (batchFun F)).trial (P.next^[k] x)
          (serialStep N n (batchFun F (P.next^[k] x)).2 (batchFun F (P.next^[k] x)).1) 0 q) < _
        rw [e1, (hF q hq).norm ((hF q hq).full (ih q hq))]
        have hle : soloNorm n (F q) (soloIter n (F q) (x q) k) ≤ P.norm (P.f (P.next^[k] x)).1 := by
          rw [← (hF q hq).norm (ih q hq)]
          exact soloNorm_le_batch N n F _ hq
        obtain ⟨h1, h2 | h2⟩ := hs q hq k (by omega)
        · have e : ∀ i < n, soloFull n (F q) (soloIter n (F q) (x q) k) i = soloIter n (F q) (x q) k i := by
            intro i hi
            unfold soloFull
            rw [solo_zero_step n (F q) _ h1 h2 i hi, sub_zero]
          rw [(hF q hq).norm e, h2]
          exact hbig
        · exact lt_of_lt_of_le h2 hle
      rw [next_full P _ hfull]
      have e1 := congrFun (batch_trial_zero N n F (P.next^[k] x) hp) i
      change P.trial (P.next^[k] x) (serialStep N n (batchFun F (P.next^[k] x)).2 (batchFun F (P.next^[k] x)).1) 0 p i = _
      rw [e1, (hF p hp).full (ih p hp) i hi, soloIter_succ (hF p hp) (hs p hp) (by omega) i hi]
  have small : ∀ k ≤ maxit, (∀ l < k, ¬ P.norm (P.f (P.next^[l] x)).1 < tol) →
      (P.norm (P.f (P.next^[k] x)).1 < tol ↔ ∀ p < N, soloNorm n (F p) (soloIter n (F p) (x p) k) < tol) := by
    intro k hk hl
    change maxAbs N n (batchFun F _).1 < _ ↔ _
    rw [batchNorm_lt_iff _ _ _ _ _ htol]
    refine forall₂_congr fun p hp => ?_
    rw [(hF p hp).norm (traj k hk hl p hp)]
  obtain ⟨j, j1, j2, j3, j4, j5⟩ := newtonLoop_iterates P tol maxit 0 x
  rw [zero_add] at j2
  change (newton P tol maxit x).it = j at j2
  change (newton P tol maxit x).x = _ at j3
  have j5 : ((newton P tol maxit x).warned = false ∧ j < maxit ∧ P.norm (P.f (P.next^[j] x)).1 < tol) ∨
      ((newton P tol maxit x).warned = true ∧ j = maxit) := j5
  -- the runs alone
  have solo : ∀ p < N, ∃ k ≤ maxit, (newton (serialProblem 1 n (soloFun (F p))) tol maxit fun _ => x p).it = k ∧
      (newton (serialProblem 1 n (soloFun (F p))) tol maxit fun _ => x p).x 0 = soloIter n (F p) (x p) k ∧
      (∀ l < k, ¬ soloNorm n (F p) (soloIter n (F p) (x p) l) < tol) ∧
      (((newton (serialProblem 1 n (soloFun (F p))) tol maxit fun _ => x p).warned = false ∧ k < maxit ∧
        soloNorm n (F p) (soloIter n (F p) (x p) k) < tol) ∨
        ((newton (serialProblem 1 n (soloFun (F p))) tol maxit fun _ => x p).warned = true ∧ k = maxit)) := by
    intro p _
    obtain ⟨k, k1, k2, k3, k4, k5⟩ := newtonLoop_iterates (serialProblem 1 n (soloFun (F p))) tol maxit 0 fun _ => x p
    have en : ∀ y : ℕ → ℕ → K, (serialProblem 1 n (soloFun (F p))).norm ((serialProblem 1 n (soloFun (F p))).f y).1
        = soloNorm n (F p) (y 0) := by
      intro y
      simp [serialProblem, soloFun, batchFun, soloNorm, maxAbs]
    simp only [en] at k4 k5
    exact ⟨k, k1, (by rw [newton, k2, zero_add]), congrFun k3 0, k4, k5⟩
  -- no point alone takes longer
  have le1 : ∀ p < N, (newton (serialProblem 1 n (soloFun (F p))) tol maxit fun _ => x p).it ≤ j := by
    intro p hp
    obtain ⟨k, k1, k2, k3, k4, k5⟩ := solo p hp
    rw [k2]
    rcases j5 with ⟨-, a, b⟩ | ⟨-, a⟩
    · by_contra hlt
      exact k4 j (by omega) ((small j j1 j4).1 b p hp)
    · omega
  -- one takes as long
  have ex1 : ∃ p < N, j = (newton (serialProblem 1 n (soloFun (F p))) tol maxit fun _ => x p).it := by
    rcases Nat.eq_zero_or_pos j with h0 | h0
    · exact ⟨0, hN, by have := le1 0 hN; omega⟩
    · have hnot := j4 (j - 1) (by omega)
      rw [small (j - 1) (by omega) fun l hl => j4 l (by omega)] at hnot
      push Not at hnot
      obtain ⟨p, hp, hp2⟩ := hnot
      refine ⟨p, hp, ?_⟩
      obtain ⟨k, k1, k2, k3, k4, k5⟩ := solo p hp
      have := le1 p hp
      rw [k2] at this ⊢
      rcases k5 with ⟨-, a, b⟩ | ⟨-, a⟩
      · by_contra hne
        have : k ≤ j - 1 := by omega
        exact absurd (lt_of_le_of_lt (soloNorm_antitone (hF p hp) (hs p hp) k (j - 1) this (by omega)) b) (not_lt.2 hp2)
      · omega
  refine ⟨fun p hp => by rw [j2]; exact le1 p hp, by rw [j2]; exact ex1, ?_, fun p hp => ⟨?_, ?_⟩⟩
  · constructor
    · intro hw
      have hj : j = maxit := by
        rcases j5 with ⟨a, -, -⟩ | ⟨-, a⟩
        · rw [a] at hw; cases hw
        · exact a
      obtain ⟨p, hp, hp2⟩ := ex1
      refine ⟨p, hp, ?_⟩
      obtain ⟨k, k1, k2, k3, k4, k5⟩ := solo p hp
      rcases k5 with ⟨-, a, -⟩ | ⟨a, -⟩
      · omega
      · exact a
    · rintro ⟨p, hp, hw⟩
      obtain ⟨k, k1, k2, k3, k4, k5⟩ := solo p hp
      have hk : k = maxit := by
        rcases k5 with ⟨a, -, -⟩ | ⟨-, a⟩
        · rw [a] at hw; cases hw
        · exact a
      have := le1 p hp
      rcases j5 with ⟨-, a, -⟩ | ⟨a, -⟩
      · omega
      · exact a
  · intro i hi
    rw [j2, j3]
    exact traj j j1 j4 p hp i hi
  · rw [j3, (hF p hp).norm (traj j j1 j4 p hp)]
    obtain ⟨k, k1, k2, k3, k4, k5⟩ := solo p hp
    rw [k3]
    exact soloNorm_antitone (hF p hp) (hs p hp) k j (by have := le1 p hp; omega) j1

end

/-- **C140, smaller steps.**  `x - 1 = 0` from `0` is solved in one step, without a warning.  Beside `y³ - 2 y + 2 = 0` from
`1`, which needs a smaller step, it is not solved after two. -/
theorem C140_newton_fails :
    let F : ℕ → PointFun ℚ := fun p z => if p = 0 then (fun _ => z 0 - 1, fun _ _ => 1)
      else (fun _ => z 0 ^ 3 - 2 * z 0 + 2, fun _ _ => 3 * z 0 ^ 2 - 2)
    let x : ℕ → ℕ → ℚ := fun p _ => p
    let solo := newton (serialProblem 1 1 (soloFun (F 0))) (1 / 10 ^ 8) 2 fun _ => x 0
    let both := newton (serialProblem 2 1 (batchFun F)) (1 / 10 ^ 8) 2 x
    solo.x 0 0 = 1 ∧ solo.it = 1 ∧ solo.warned = false ∧ (F 0 (both.x 0)).1 0 ≤ -1 / 2 := by
  decide +kernel

/-- The hypotheses hold for `2 z - 6 = 0` and `z = 0`, from `10` and from `0` (a solution). -/
example : let F : ℕ → PointFun ℚ := fun p z => if p = 0 then (fun _ => 2 * z 0 - 6, fun _ _ => 2) else (fun _ => z 0, fun _ _ => 1)
    (∀ p < 2, HasUnknowns 1 (F p)) ∧ FullSteps 1 (F 0) (fun _ => 10) 2 ∧ FullSteps 1 (F 1) (fun _ => 0) 2 := by
  intro F
  have ns : ∀ c : ℚ, c ≠ 0 → Nonsingular 1 fun _ _ => c := by
    intro c hc y h j hj
    have := h 0 (by norm_num)
    obtain rfl : j = 0 := by omega
    simpa [hc] using this
  refine ⟨fun p _ z z' h => ?_, fun k hk => ⟨?_, ?_⟩, fun k hk => ⟨?_, ?_⟩⟩
  · simp [F, h 0 (by norm_num)]
  · exact ns 2 (by norm_num)
  · interval_cases k
    · right
      decide +kernel
    · left
      decide +kernel
  · exact ns 1 (by norm_num)
  · left
    interval_cases k <;> decide +kernel

end Dolo
