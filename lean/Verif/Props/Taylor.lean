import Mathlib.Algebra.BigOperators.Fin
import Mathlib.Tactic.FieldSimp
import Verif.Model.Taylor
import Verif.Props.HigherOrder

/-!
# C56: Taylor-expansion decision rules
-/

set_option linter.unusedSectionVars false

namespace Dolo

variable {K : Type} [Field K] {ns nx ne : ℕ}

/-! ### Specification -/

/-- The polynomial `X_bar + X_s ds + ½ X_ss(ds, ds) + ⅙ X_sss(ds, ds, ds)`, up to the order given. -/
def taylorValue (X_bar : Fin nx → K) (X_s : Fin nx → Fin ns → K) (tail : TaylorTail ns nx K) (ds : Fin ns → K)
    (n : Fin nx) : K :=
  X_bar n + ∑ i, X_s n i * ds i
    + (match tail with
      | .one => 0
      | .two X_ss | .three X_ss _ | .more X_ss _ _ => (∑ i, ∑ j, X_ss n i j * (ds i * ds j)) / 2)
    + match tail with
      | .one | .two _ => 0
      | .three _ X_sss | .more _ X_sss _ => (∑ i, ∑ j, ∑ k, X_sss n i j k * (ds i * ds j * ds k)) / 6

/-! ### Auxiliary -/

private theorem foldl_add {α : Type} (l : List α) (f : α → K) (a : K) :
    l.foldl (fun out i => out + f i) a = a + (l.map f).sum := by
  induction l generalizing a with
  | nil => simp
  | cons b l ih => simp [ih, add_assoc]

private theorem foldl_fin (f : Fin ns → K) (a : K) :
    (List.finRange ns).foldl (fun out i => out + f i) a = a + ∑ i, f i := by
  rw [foldl_add, ← List.ofFn_eq_map, List.sum_ofFn]

private theorem foldl_congr {α : Type} (l : List α) (f g : K → α → K) (h : ∀ a i, f a i = g a i) (a : K) :
    l.foldl f a = l.foldl g a := by
  have : f = g := by funext a i; exact h a i
  rw [this]

private theorem te1 (s0 : Fin ns → K) (x0 : Fin nx → K) (x1 : Fin nx → Fin ns → K) (s : Fin ns → K) :
    evalTE1 s0 x0 x1 s = taylorValue x0 x1 .one (s - s0) := by
  funext n
  unfold evalTE1
  rw [foldl_fin]
  simp [taylorValue]

private theorem te2 (s0 : Fin ns → K) (x0 : Fin nx → K) (x1 : Fin nx → Fin ns → K)
    (x2 : Fin nx → Fin ns → Fin ns → K) (s : Fin ns → K) :
    evalTE2 s0 x0 x1 x2 s = taylorValue x0 x1 (.two x2) (s - s0) := by
  funext n
  unfold evalTE2
  rw [foldl_congr _ _ (fun out i => out + (x1 n i * (s i - s0 i)
    + ∑ j, x2 n i j * (s i - s0 i) * (s j - s0 j) / 2)) (fun a i => by rw [foldl_fin, add_assoc]), foldl_fin]
  simp only [taylorValue, Pi.sub_apply, Finset.sum_add_distrib, Finset.sum_div, mul_assoc, add_zero, add_assoc]

private theorem te3 (s0 : Fin ns → K) (x0 : Fin nx → K) (x1 : Fin nx → Fin ns → K)
    (x2 : Fin nx → Fin ns → Fin ns → K) (x3 : Fin nx → Fin ns → Fin ns → Fin ns → K) (s : Fin ns → K) :
    evalTE3 s0 x0 x1 x2 x3 s = taylorValue x0 x1 (.three x2 x3) (s - s0) := by
  funext n
  unfold evalTE3
  rw [foldl_congr _ _ (fun out i => out + (x1 n i * (s i - s0 i)
    + ∑ j, (x2 n i j * (s i - s0 i) * (s j - s0 j) / 2
      + ∑ k, x3 n i j k * (s i - s0 i) * (s j - s0 j) * (s k - s0 k) / 6))) ?_, foldl_fin]
  · simp only [taylorValue, Pi.sub_apply, Finset.sum_add_distrib, Finset.sum_div, mul_assoc, add_assoc]
  · intro a i
    rw [foldl_congr _ _ (fun out j => out + (x2 n i j * (s i - s0 i) * (s j - s0 j) / 2
      + ∑ k, x3 n i j k * (s i - s0 i) * (s j - s0 j) * (s k - s0 k) / 6))
      (fun a j => by rw [foldl_fin, add_assoc]), foldl_fin, add_assoc]

private theorem evalRow_init {S_bar : Fin ns → K} {X_bar : Fin nx → K} {X_s : Fin nx → Fin ns → K}
    {tail : TaylorTail ns nx K} {t : TaylorExp ns nx K} (h : TaylorExp.init S_bar X_bar X_s tail = .ok t)
    (s : Fin ns → K) : t.evalRow s = .ok (taylorValue X_bar X_s tail (s - S_bar)) := by
  cases tail <;> simp only [TaylorExp.init, Except.ok.injEq, reduceCtorEq] at h <;> subst h <;>
    simp [TaylorExp.evalRow, te1, te2, te3]

private theorem mapM_ok {α β : Type} (f : α → Except Err β) (g : α → β) (h : ∀ a, f a = .ok (g a)) (l : List α) :
    l.mapM f = .ok (l.map g) := by
  induction l with
  | nil => rfl
  | cons a l ih => simp [List.mapM_cons, h, ih, bind, Except.bind, pure, Except.pure]

private theorem evalS_init {S_bar : Fin ns → K} {X_bar : Fin nx → K} {X_s : Fin nx → Fin ns → K}
    {tail : TaylorTail ns nx K} {t : TaylorExp ns nx K} (h : TaylorExp.init S_bar X_bar X_s tail = .ok t)
    (s : List (Fin ns → K)) : t.evalS s = .ok (s.map fun s => taylorValue X_bar X_s tail (s - S_bar)) :=
  mapM_ok _ _ (evalRow_init h) s

/-! ### Theorems -/

/-- **C56.**  A rule built from coefficients of order one, two or three, called with one point or with an array of
points, returns the value of the Taylor polynomial at every point; at `S_bar` this is `X_bar`.  Building a rule of
order four or more raises. -/
theorem C56_evaluates (nm : ℕ) (S_bar : Fin ns → K) (X_bar : Fin nx → K) (X_s : Fin nx → Fin ns → K)
    (tail : TaylorTail ns nx K) :
    (∀ t, TaylorExp.init S_bar X_bar X_s tail = .ok t →
      (∀ s, (t.ops nm).call1 (.vec s) = .ok (.vec (taylorValue X_bar X_s tail (s - S_bar)))) ∧
      (∀ l : List _, (t.ops nm).call1 (.rows l)
        = .ok (.rows (l.map fun s => taylorValue X_bar X_s tail (s - S_bar)))) ∧
      (t.ops nm).call1 (.vec S_bar) = .ok (.vec X_bar)) ∧
    ((∃ a b c, tail = .more a b c) ↔ TaylorExp.init S_bar X_bar X_s tail = .error (.exception "Not implemented")) := by
  refine ⟨fun t h => ?_, ?_⟩
  · have h1 : ∀ s, (t.ops nm).call1 (.vec s) = .ok (.vec (taylorValue X_bar X_s tail (s - S_bar))) := by
      intro s
      simp [RuleOps.call1, TaylorExp.ops, evalS_init h, bind, Except.bind, headRow, pyGet, pure, Except.pure]
    refine ⟨h1, ?_, ?_⟩
    · intro l
      simp [RuleOps.call1, TaylorExp.ops, evalS_init h, bind, Except.bind, pure, Except.pure]
    · rw [h1, sub_self]
      congr 2
      funext n
      cases tail <;> simp [taylorValue]
  · cases tail <;> simp [TaylorExp.init]

/-- **C56, exogenous argument.**  Called with an exogenous value (floats, one vector or rows) and states, the rule
ignores the exogenous value; called with an integer first argument it raises an `AttributeError`. -/
theorem C56_two_arguments (nm : ℕ) (S_bar : Fin ns → K) (X_bar : Fin nx → K) (X_s : Fin nx → Fin ns → K)
    (tail : TaylorTail ns nx K) (t : TaylorExp ns nx K) (h : TaylorExp.init S_bar X_bar X_s tail = .ok t) :
    let v := fun s => taylorValue X_bar X_s tail (s - S_bar)
    (∀ m s, (t.ops nm).call2 (.float (.vec m)) (.vec s) = .ok (.vec (v s))) ∧
    (∀ m (l : List _), (t.ops nm).call2 (.float (.vec m)) (.rows l) = .ok (.rows (l.map v))) ∧
    (∀ (m : List _) (l : List _), (t.ops nm).call2 (.float (.rows m)) (.rows l) = .ok (.rows (l.map v))) ∧
    (∀ (m : List _) s, (t.ops nm).call2 (.float (.rows m)) (.vec s) = .ok (.rows [v s])) ∧
    (∀ i s, (t.ops nm).call2 (.int i) (.vec s) = .error .attributeError) ∧
    ∀ i (l : List _), (t.ops nm).call2 (.int i) (.rows l) = .error .attributeError := by
  intro v
  refine ⟨?_, ?_, ?_, ?_, ?_, ?_⟩ <;> intros <;>
    simp [RuleOps.call2, TaylorExp.ops, TaylorExp.evalMS, evalS_init h, bind, Except.bind, headRow, pyGet, pure,
      Except.pure, v]

/-- **C56, selection of controls.**  `rule[ind]` is the rule for the selected controls. -/
theorem C56_getitem (nm : ℕ) (S_bar : Fin ns → K) (X_bar : Fin nx → K) (X_s : Fin nx → Fin ns → K)
    (tail : TaylorTail ns nx K) (t : TaylorExp ns nx K) (h : TaylorExp.init S_bar X_bar X_s tail = .ok t)
    {m : ℕ} (ind : Fin m → Fin nx) :
    ∃ t', t.getItem ind = .ok t' ∧ ∀ s, (t'.ops nm).call1 (.vec s)
      = .ok (.vec fun i => taylorValue X_bar X_s tail (s - S_bar) (ind i)) := by
  cases tail <;> simp only [TaylorExp.init, Except.ok.injEq, reduceCtorEq] at h
  · subst h
    refine ⟨_, rfl, fun s => ?_⟩
    have := ((C56_evaluates nm S_bar (fun i => X_bar (ind i)) (fun i => X_s (ind i)) .one).1 _ rfl).1 s
    exact this
  · rename_i X_ss
    subst h
    refine ⟨_, rfl, fun s => ?_⟩
    exact ((C56_evaluates nm S_bar (fun i => X_bar (ind i)) (fun i => X_s (ind i))
      (.two fun i => X_ss (ind i))).1 _ rfl).1 s
  · rename_i X_ss X_sss
    subst h
    refine ⟨_, rfl, fun s => ?_⟩
    exact ((C56_evaluates nm S_bar (fun i => X_bar (ind i)) (fun i => X_s (ind i))
      (.three (fun i => X_ss (ind i)) fun i => X_sss (ind i))).1 _ rfl).1 s

/-- The Taylor polynomial of a rule `φ(s, λ)` around `(s_bar, 0)`, up to third order. -/
def rulePoly (x_bar : Fin nx → K) (d1 : Fin nx → Fin ns ⊕ Unit → K) (d2 : Fin nx → Fin ns ⊕ Unit → Fin ns ⊕ Unit → K)
    (d3 : Fin nx → Fin ns ⊕ Unit → Fin ns ⊕ Unit → Fin ns ⊕ Unit → K) (z : Fin ns ⊕ Unit → K) (n : Fin nx) : K :=
  x_bar n + ∑ j, d1 n j * z j + (∑ j, ∑ l, d2 n j l * (z j * z l)) / 2
    + (∑ j, ∑ l, ∑ m, d3 n j l m * (z j * z l * z m)) / 6

/-- The Taylor polynomial with the derivatives found by `state_perturb`. -/
def pertPoly (x_bar : Fin nx → K) (sol : PertSol ns nx K) (z : Fin ns ⊕ Unit → K) : Fin nx → K :=
  match sol with
  | .first X_s => rulePoly x_bar (ruleD1 X_s) (fun _ _ _ => 0) (fun _ _ _ _ => 0) z
  | .second X_s X_ss X_tt => rulePoly x_bar (ruleD1 X_s) (ruleD2 X_ss X_tt) (fun _ _ _ _ => 0) z
  | .third X_s X_ss X_sss X_tt X_stt => rulePoly x_bar (ruleD1 X_s) (ruleD2 X_ss X_tt) (ruleD3 X_sss X_stt) z
  | .noResult => x_bar

/-- **C56, the rule returned by `perturb`.**  For every order, the rule returned by the higher-order `perturb` takes,
at every state `s`, the value of the Taylor polynomial in (state, scale of risk) with the derivatives computed by
`state_perturb` (those of C36), at the actual scale of risk `λ = 1`. -/
theorem C56_perturb [CharZero K] (nm : ℕ) (p : Problem ns nx ne K) (s_bar : Fin ns → K) (x_bar : Fin nx → K)
    (sol : PertSol ns nx K) (dr : TaylorExp ns nx K)
    (AB : Option ((Fin ns → Fin ns → K) × (Fin ns → Fin ne → K)))
    (h : pertRule p s_bar x_bar sol = .ok (some (dr, AB))) (s : Fin ns → K) :
    let z : Fin ns ⊕ Unit → K := Sum.elim (s - s_bar) fun _ => 1
    (dr.ops nm).call1 (.vec s) = .ok (.vec (pertPoly x_bar sol z)) := by
  intro z
  cases sol with
  | first X_s =>
    simp only [pertRule, TaylorExp.init, bind, Except.bind, pure, Except.pure, Except.ok.injEq, Option.some.injEq,
      Prod.mk.injEq] at h
    rw [← h.1]
    refine (((C56_evaluates nm s_bar x_bar X_s .one).1 _ rfl).1 s).trans ?_
    congr 2
    funext n
    simp [taylorValue, pertPoly, rulePoly, ruleD1, z]
  | second X_s X_ss X_tt =>
    simp only [pertRule, TaylorExp.init, bind, Except.bind, pure, Except.pure, Except.ok.injEq, Option.some.injEq,
      Prod.mk.injEq] at h
    rw [← h.1]
    refine (((C56_evaluates nm s_bar _ X_s (.two X_ss)).1 _ rfl).1 s).trans ?_
    congr 2
    funext n
    simp [taylorValue, pertPoly, rulePoly, ruleD1, ruleD2, z]
    ring
  | third X_s X_ss X_sss X_tt X_stt =>
    simp only [pertRule, TaylorExp.init, bind, Except.bind, pure, Except.pure, Except.ok.injEq, Option.some.injEq,
      Prod.mk.injEq] at h
    rw [← h.1]
    refine (((C56_evaluates nm s_bar _ _ (.three X_ss X_sss)).1 _ rfl).1 s).trans ?_
    congr 2
    funext n
    simp [taylorValue, pertPoly, rulePoly, ruleD1, ruleD2, ruleD3, z]
    have e : ∑ x, (X_s n x + X_stt n x / 2) * (s x - s_bar x)
        = ∑ x, X_s n x * (s x - s_bar x) + (∑ x, X_stt n x * (s x - s_bar x)) / 2 := by
      rw [Finset.sum_div, ← Finset.sum_add_distrib]
      exact Finset.sum_congr rfl fun x _ => by ring
    rw [e, Finset.sum_add_distrib]
    field_simp
    ring
  | noResult =>
    simp [pertRule, pure, Except.pure] at h

/-- A rule of order two in two states. -/
example : ∃ t, TaylorExp.init (ns := 2) (nx := 1) (K := ℚ) ![1, 2] ![3] (fun _ => ![1, -1])
      (.two fun _ i j => if i = j then 2 else 1) = .ok t ∧
    (t.ops 0).call1 (.vec ![2, 4]) = .ok (.vec fun _ => 3 + (1 - 2) + (2 * 1 + 2 * 4 + 2 * 2) / 2) := by
  refine ⟨_, rfl, ?_⟩
  rw [((C56_evaluates 0 ![1, 2] ![3] (fun _ => ![1, -1]) (.two fun _ i j => if i = j then 2 else 1)).1 _ rfl).1]
  congr 2
  funext n
  fin_cases n
  simp [taylorValue, Fin.sum_univ_two]
  norm_num

end Dolo
