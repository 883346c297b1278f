import Verif.Lemmas.Distribution
import Verif.Model.Markov

/-! Helper lemmas on Kronecker products and products of weighted lists. -/

set_option linter.unusedSectionVars false

namespace Dolo

variable {K : Type} [Field K]

theorem kronR_eq_map (l : List (List K)) : kronR l = (prodRows l).map List.prod := by
  induction l with
  | nil => rfl
  | cons a r ih =>
    simp only [kronR, kronVec, prodRows_cons, List.map_flatMap, List.map_map, ih]
    rfl

/-- right-nested Kronecker product of matrices -/
def kronMatR : List (List (List K)) → List (List K)
  | [] => [[1]]
  | A :: r => kronMat A (kronMatR r)

theorem kronMatR_eq_map (l : List (List (List K))) :
    kronMatR l = (prodRows l).map kronR := by
  induction l with
  | nil => rfl
  | cons a r ih =>
    simp only [kronMatR, kronMat, prodRows_cons, List.map_flatMap, List.map_map, ih]
    rfl

theorem kronMat_assoc (A B C : List (List K)) :
    kronMat (kronMat A B) C = kronMat A (kronMat B C) := by
  simp only [kronMat, List.flatMap_assoc, List.flatMap_map, List.map_flatMap, List.map_map]
  congr 1; funext a
  congr 1; funext b
  refine List.map_congr_left fun c _ => ?_
  exact kronVec_assoc a b c

theorem sum_kronVec (a b : List K) : (kronVec a b).sum = a.sum * b.sum := by
  induction a with
  | nil => simp [kronVec]
  | cons x a ih =>
    simp only [kronVec, List.flatMap_cons, List.sum_append, List.sum_cons] at ih ⊢
    rw [ih, List.sum_map_mul_left]
    simp; ring

theorem sum_kronR (l : List (List K)) : (kronR l).sum = (l.map List.sum).prod := by
  induction l with
  | nil => simp [kronR]
  | cons a r ih => simp [kronR, sum_kronVec, ih]

theorem mem_prodRows {α : Type} (l : List (List α)) (t : List α) (ht : t ∈ prodRows l) :
    List.Forall₂ (fun a x => x ∈ a) l t := by
  induction l generalizing t with
  | nil => simp at ht; subst ht; exact List.Forall₂.nil
  | cons a r ih =>
    simp only [prodRows_cons, List.mem_flatMap, List.mem_map] at ht
    obtain ⟨x, hx, s, hs, rfl⟩ := ht
    exact List.Forall₂.cons hx (ih s hs)

theorem wsum_wprod_cons {β : Type} (a : List (K × β)) (r : List (List (K × β)))
    (f : List β → K) :
    wsum (wprod (a :: r)) f = wsum a fun x => wsum (wprod r) fun t => f (x :: t) := by
  simp only [wprod]
  induction a with
  | nil => simp
  | cons p a ih =>
    rw [List.flatMap_cons, wsum_append, ih, wsum_cons]
    congr 1
    rw [← wsum_const_mul]
    generalize wprod r = R
    induction R with
    | nil => simp
    | cons q R ihR => simp [ihR]; ring

end Dolo
