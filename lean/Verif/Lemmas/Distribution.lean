import Mathlib.Tactic.Ring
import Mathlib.Algebra.BigOperators.Ring.List
import Verif.Lemmas.Cartesian
import Verif.Model.Distribution

/-! Helper lemmas on weighted products. -/

set_option linter.unusedSectionVars false

namespace Dolo

variable {K : Type} [Field K] {β γ : Type}

/-- Weighted product of weighted lists (proof device). -/
def wprod : List (List (K × β)) → List (K × List β)
  | [] => [(1, [])]
  | a :: r => a.flatMap fun x => (wprod r).map fun t => (x.1 * t.1, x.2 :: t.2)

theorem map_snd_wprod (l : List (List (K × β))) :
    (wprod l).map Prod.snd = prodRows (l.map fun a => a.map Prod.snd) := by
  induction l with
  | nil => rfl
  | cons a r ih =>
    simp only [wprod, List.map_flatMap, List.map_map, List.map_cons, prodRows_cons,
      List.flatMap_map, ← ih]
    rfl

/-- right-nested Kronecker product of weight vectors -/
def kronR : List (List K) → List K
  | [] => [1]
  | a :: r => kronVec a (kronR r)

theorem map_fst_wprod (l : List (List (K × β))) :
    (wprod l).map Prod.fst = kronR (l.map fun a => a.map Prod.fst) := by
  induction l with
  | nil => rfl
  | cons a r ih =>
    simp only [wprod, List.map_flatMap, List.map_map, List.map_cons, kronR, kronVec,
      List.flatMap_map, ← ih]
    rfl

theorem kronVec_one (a : List K) : kronVec a [1] = a := by
  simp [kronVec]

theorem kronVec_assoc (a b c : List K) : kronVec (kronVec a b) c = kronVec a (kronVec b c) := by
  simp [kronVec, List.flatMap_assoc, List.flatMap_map, List.map_flatMap, mul_assoc,
    Function.comp_def]

theorem foldl_kronVec (a : List K) (l : List (List K)) :
    l.foldl (fun w f => kronVec w f) a = kronVec a (kronR l) := by
  induction l generalizing a with
  | nil => simp [kronR, kronVec_one]
  | cons b r ih => simp [ih, kronR, kronVec_assoc]

theorem length_kronVec (a b : List K) : (kronVec a b).length = a.length * b.length := by
  simp [kronVec, List.length_flatMap]

theorem length_kronR (l : List (List K)) : (kronR l).length = (l.map List.length).prod := by
  induction l with
  | nil => simp [kronR]
  | cons a r ih => simp [kronR, length_kronVec, ih]

/-- Sum of `w * f x` over a weighted list. -/
def wsum (l : List (K × β)) (f : β → K) : K := (l.map fun wx => wx.1 * f wx.2).sum

@[simp] theorem wsum_nil (f : β → K) : wsum ([] : List (K × β)) f = 0 := rfl

@[simp] theorem wsum_cons (p : K × β) (l : List (K × β)) (f : β → K) :
    wsum (p :: l) f = p.1 * f p.2 + wsum l f := by simp [wsum]

theorem wsum_append (l m : List (K × β)) (f : β → K) : wsum (l ++ m) f = wsum l f + wsum m f := by
  simp [wsum]

theorem wsum_congr (l : List (K × β)) (f g : β → K) (h : ∀ p ∈ l, f p.2 = g p.2) :
    wsum l f = wsum l g := by
  unfold wsum
  congr 1
  exact List.map_congr_left fun p hp => by rw [h p hp]

theorem wsum_const_mul (l : List (K × β)) (c : K) (f : β → K) :
    wsum l (fun x => c * f x) = c * wsum l f := by
  induction l with
  | nil => simp
  | cons p l ih => simp [ih]; ring

theorem wsum_mul_const (l : List (K × β)) (c : K) (f : β → K) :
    wsum l (fun x => f x * c) = wsum l f * c := by
  induction l with
  | nil => simp
  | cons p l ih => simp [ih]; ring

theorem wsum_add (l : List (K × β)) (f g : β → K) :
    wsum l (fun x => f x + g x) = wsum l f + wsum l g := by
  induction l with
  | nil => simp
  | cons p l ih => simp [ih]; ring

theorem wsum_sum {ι : Type} (s : Finset ι) (l : List (K × β)) (f : ι → β → K) :
    wsum l (fun x => ∑ i ∈ s, f i x) = ∑ i ∈ s, wsum l (f i) := by
  induction l with
  | nil => simp
  | cons p l ih => simp [ih, Finset.mul_sum, Finset.sum_add_distrib]

theorem wsum_map_weight (l : List (K × β)) (c : K) (f : β → K) :
    wsum (l.map fun wx => (c * wx.1, wx.2)) f = c * wsum l f := by
  induction l with
  | nil => simp
  | cons p l ih => simp [ih]; ring

theorem wsum_map_point (l : List (K × β)) (g : β → γ) (f : γ → K) :
    wsum (l.map fun wx => (wx.1, g wx.2)) f = wsum l (fun x => f (g x)) := by
  induction l with
  | nil => simp
  | cons p l ih => simp [ih]

/-- product over positions of functions applied to the entries -/
def prodApply : List (β → K) → List β → K
  | [], _ => 1
  | _ :: _, [] => 1
  | f :: fs, x :: xs => f x * prodApply fs xs

theorem wsum_wprod (l : List (List (K × β))) (fs : List (β → K)) (h : fs.length = l.length) :
    wsum (wprod l) (prodApply fs) = (List.zipWith (fun a f => wsum a f) l fs).prod := by
  induction l generalizing fs with
  | nil => cases fs <;> simp_all [wprod, prodApply]
  | cons a r ih =>
    cases fs with
    | nil => simp at h
    | cons f fs =>
      have ih' := ih fs (by simpa using h)
      simp only [wprod, List.zipWith_cons_cons, List.prod_cons, ← ih']
      clear ih ih' h
      induction a with
      | nil => simp
      | cons p a iha =>
        rw [List.flatMap_cons, wsum_append, iha, wsum_cons, add_mul]
        congr 1
        generalize wprod r = R
        clear iha
        induction R with
        | nil => simp
        | cons q R ihR => simp [ihR, prodApply]; ring

theorem mem_wprod_forall₂ (l : List (List (K × β))) (t : K × List β) (ht : t ∈ wprod l) :
    List.Forall₂ (fun a x => x ∈ a.map Prod.snd) l t.2 := by
  induction l generalizing t with
  | nil => simp [wprod] at ht; subst ht; exact List.Forall₂.nil
  | cons a r ih =>
    simp only [wprod, List.mem_flatMap, List.mem_map] at ht
    obtain ⟨x, hx, s, hs, rfl⟩ := ht
    exact List.Forall₂.cons (List.mem_map_of_mem hx) (ih s hs)

theorem zip_map_fst_snd (l : List (K × β)) : List.zip (l.map Prod.fst) (l.map Prod.snd) = l := by
  induction l with
  | nil => rfl
  | cons a l ih => simp [ih]

end Dolo

namespace Dolo

set_option linter.unusedSectionVars false

variable {K : Type} [Field K]

theorem mapM_except_ok {α β : Type} (f : α → Except Err β) (g : α → β) :
    ∀ l : List α, (∀ x ∈ l, f x = .ok (g x)) → l.mapM f = .ok (l.map g)
  | [], _ => rfl
  | x :: l, h => by
    rw [List.mapM_cons, h x (by simp), mapM_except_ok f g l fun y hy => h y (by simp [hy])]
    rfl

/-- the rows selected by an index row (proof device) -/
def pick (row : List ℕ) (fs : List (FiniteDist K)) : List (List K) :=
  List.zipWith (fun i (f : FiniteDist K) => f.points.getD i []) row fs

theorem map_getD_range {α : Type} (l : List α) (d : α) :
    (List.range l.length).map (fun i => l.getD i d) = l := by
  apply List.ext_getElem (by simp)
  intro i h1 h2
  simp [List.getElem?_eq_getElem h2]

theorem map_pick_prodRows (fs : List (FiniteDist K))
    (h : ∀ f ∈ fs, f.points.length = f.weights.length) :
    (prodRows (fs.map fun f => List.range f.weights.length)).map (fun row => pick row fs)
      = prodRows (fs.map FiniteDist.points) := by
  induction fs with
  | nil => rfl
  | cons f fs ih =>
    have ih' := ih fun g hg => h g (by simp [hg])
    simp only [List.map_cons, prodRows_cons, List.map_flatMap, List.map_map]
    rw [← ih']
    conv_rhs => rw [← map_getD_range f.points []]
    rw [List.flatMap_map, h f (by simp)]
    congr 1
    funext i
    rw [List.map_map]
    rfl

theorem gatherRow_ok (fs : List (FiniteDist K))
    (h : ∀ f ∈ fs, f.points.length = f.weights.length) :
    ∀ row ∈ prodRows (fs.map fun f => List.range f.weights.length),
      gatherRow row fs = .ok (pick row fs).flatten := by
  induction fs with
  | nil => intro row hrow; simp at hrow; subst hrow; rfl
  | cons f fs ih =>
    intro row hrow
    simp only [List.map_cons, prodRows_cons, List.mem_flatMap, List.mem_range, List.mem_map] at hrow
    obtain ⟨i, hi, t, ht, rfl⟩ := hrow
    have := ih (fun g hg => h g (by simp [hg])) t ht
    have hi' : i < f.points.length := by rw [h f (by simp)]; exact hi
    simp [gatherRow, this, pyGet, List.getElem?_eq_getElem hi', bind, Except.bind, pure,
      Except.pure, pick]

theorem map_snd_items (f : FiniteDist K) (h : f.points.length = f.weights.length) :
    f.items.map Prod.snd = f.points := by
  simp [FiniteDist.items, List.map_snd_zip, h]

theorem map_fst_items (f : FiniteDist K) (h : f.points.length = f.weights.length) :
    f.items.map Prod.fst = f.weights := by
  simp [FiniteDist.items, List.map_fst_zip, h]

theorem integrate_eq_wsum (f : FiniteDist K) (g : List K → K) : f.integrate g = wsum f.items g := rfl

/-- What `product_iid` returns, as a weighted product. -/
theorem productIid_eq (fs : List (FiniteDist K)) (hne : fs ≠ [])
    (h : ∀ f ∈ fs, f.points.length = f.weights.length) :
    productIid fs = .ok ⟨(wprod (fs.map FiniteDist.items)).map (fun t => t.2.flatten),
      (wprod (fs.map FiniteDist.items)).map Prod.fst⟩ := by
  cases fs with
  | nil => exact absurd rfl hne
  | cons f0 rest =>
    have hrows : ∀ l : List (FiniteDist K), (∀ f ∈ l, f.points.length = f.weights.length) →
        l.map (fun f => f.items.map Prod.snd) = l.map FiniteDist.points := fun l hl =>
      List.map_congr_left fun f hf => map_snd_items f (hl f hf)
    have hw : ∀ l : List (FiniteDist K), (∀ f ∈ l, f.points.length = f.weights.length) →
        l.map (fun f => f.items.map Prod.fst) = l.map FiniteDist.weights := fun l hl =>
      List.map_congr_left fun f hf => map_fst_items f (hl f hf)
    have hnodes : (prodRows ((f0 :: rest).map fun f => List.range f.weights.length)).mapM
        (fun row => gatherRow row (f0 :: rest))
        = .ok ((wprod ((f0 :: rest).map FiniteDist.items)).map (fun t => t.2.flatten)) := by
      rw [mapM_except_ok _ (fun row => (pick row (f0 :: rest)).flatten) _
        (gatherRow_ok (f0 :: rest) h)]
      congr 1
      have h1 := map_pick_prodRows (f0 :: rest) h
      have h2 := map_snd_wprod ((f0 :: rest).map FiniteDist.items)
      rw [List.map_map] at h2
      have h3 := hrows (f0 :: rest) h
      simp only [Function.comp_def] at h2
      rw [h3] at h2
      calc _ = ((prodRows ((f0 :: rest).map fun f => List.range f.weights.length)).map
              (fun row => pick row (f0 :: rest))).map List.flatten := by rw [List.map_map]; rfl
        _ = ((wprod ((f0 :: rest).map FiniteDist.items)).map Prod.snd).map List.flatten := by
            rw [h1, h2]
        _ = _ := by rw [List.map_map]; rfl
    have hweights : rest.foldl (fun w f => kronVec w f.weights) f0.weights
        = (wprod ((f0 :: rest).map FiniteDist.items)).map Prod.fst := by
      rw [map_fst_wprod, List.map_map]
      have h3 := hw (f0 :: rest) h
      simp only [Function.comp_def]
      rw [h3, List.map_cons, kronR, ← foldl_kronVec, List.foldl_map]
    have hcart : cartesian (List.map (fun f => List.range f.weights.length) (f0 :: rest))
        = .ok (prodRows ((f0 :: rest).map fun f => List.range f.weights.length)) := by
      rw [List.map_cons, cartesian_cons]
    simp only [productIid]
    rw [hcart]
    simp only [bind, Except.bind]
    rw [hnodes]
    simp [hweights, FiniteDist.mk']

end Dolo
