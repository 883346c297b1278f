import Mathlib.Algebra.BigOperators.Ring.Finset
import Mathlib.Algebra.BigOperators.Group.Finset.Sigma
import Mathlib.Algebra.Order.BigOperators.Group.List
import Mathlib.Data.List.Forall2
import Mathlib.Data.List.Range
import Mathlib.Data.List.Sort
import Mathlib.Data.Rat.Defs
import Mathlib.Tactic.Ring
import Mathlib.Tactic.NormNum
import Verif.Model.Tensor

/-!
# C99: tensor products contract the dimensions they say

Specification: the entry of the product at the index `lead ++ J₁ ++ ... ++ J_k` is the sum over
`a₁, ..., a_k` of `M[lead, a₁, ..., a_k] C₁[a₁, J₁] ⋯ C_k[a_k, J_k]`.
-/

set_option linter.unusedSectionVars false

namespace Dolo

open Finset

variable {K : Type} [Field K]

/-! ### Specification -/

/-- The index is inside the array. -/
def InBox (idx shape : List ℕ) : Prop := List.Forall₂ (· < ·) idx shape

/-- Sum over all indices of a given shape. -/
def sumIdx : List ℕ → (List ℕ → K) → K
  | [], f => f []
  | d :: ds, f => ∑ i ∈ range d, sumIdx ds fun t => f (i :: t)

/-- `C₁[a₁, J₁] ⋯ C_k[a_k, J_k]`. -/
def prodC : List (NdArray K) → List ℕ → List (List ℕ) → K
  | c :: cs, a :: as, J :: Js => c.get (a :: J) * prodC cs as Js
  | _, _, _ => 1

/-- First dimensions of the arrays. -/
def firstDims (C : List (NdArray K)) : List ℕ := C.map fun c => c.shape.headD 0

/-- Remaining dimensions of the arrays. -/
def restDims (C : List (NdArray K)) : List (List ℕ) := C.map fun c => c.shape.tail

/-- The contraction of the last dimensions of `M` with the first ones of the `C`. -/
def contraction (M : NdArray K) (C : List (NdArray K)) (lead : List ℕ) (Js : List (List ℕ)) : K :=
  sumIdx (firstDims C) fun a => M.get (lead ++ a) * prodC C a Js

/-! ### Helper lemmas -/

theorem sumIdx_congr {ds : List ℕ} {f g : List ℕ → K} (h : ∀ a, InBox a ds → f a = g a) :
    sumIdx ds f = sumIdx ds g := by
  induction ds generalizing f g with
  | nil => exact h [] .nil
  | cons d ds ih =>
    refine Finset.sum_congr rfl fun i hi => ih fun a ha => h _ (.cons (Finset.mem_range.1 hi) ha)

theorem InBox.length {a ds : List ℕ} (h : InBox a ds) : a.length = ds.length := List.Forall₂.length_eq h

/-- The labels of the arrays `C`, when the labels of their first dimensions start at `a` and the others
at `ic`. -/
def cLab : ℕ → ℕ → List ℕ → List (List ℕ)
  | _, _, [] => []
  | a, ic, t :: ts => (a :: List.range' ic t) :: cLab (a + 1) (ic + t) ts

theorem cSyms_eq (b k : ℕ) (rs : List ℕ) (i ic : ℕ) (hi : i + rs.length ≤ k) :
    cSyms (List.range' b k) i ic rs = .ok (cLab (b + i) ic (rs.map (· - 1))) := by
  induction rs generalizing i ic with
  | nil => rfl
  | cons r rs ih =>
    have hik : i < k := by simp at hi; omega
    have hg : pyGet (List.range' b k) i = .ok (b + i) := by
      simp [pyGet, hik]
    simp only [cSyms, hg, bind, Except.bind, pure, Except.pure]
    rw [ih (i + 1) _ (by simp at hi; omega)]
    simp [cLab, Nat.add_assoc]

theorem cLab_tails (a ic : ℕ) (ts : List ℕ) :
    ((cLab a ic ts).map List.tail).flatten = List.range' ic ts.sum := by
  induction ts generalizing a ic with
  | nil => rfl
  | cons t ts ih =>
    simp only [cLab, List.map_cons, List.tail_cons, List.flatten_cons, ih, List.sum_cons]
    rw [List.range'_append_1]

theorem cLab_length (a ic : ℕ) (ts : List ℕ) : (cLab a ic ts).length = ts.length := by
  induction ts generalizing a ic with
  | nil => rfl
  | cons t ts ih => simp [cLab, ih]

theorem mem_cLab (a ic : ℕ) (ts : List ℕ) (l : ℕ) :
    l ∈ (cLab a ic ts).flatten ↔ (a ≤ l ∧ l < a + ts.length) ∨ (ic ≤ l ∧ l < ic + ts.sum) := by
  induction ts generalizing a ic with
  | nil => simp [cLab]
  | cons t ts ih =>
    simp only [cLab, List.flatten_cons, List.mem_append, List.mem_cons, List.mem_range'_1, ih,
      List.length_cons, List.sum_cons]
    omega

theorem signature_eq (s : ℕ) (ts : List ℕ) (hts : ts ≠ []) (rs : List ℕ)
    (hrs : rs.map (· - 1) = ts) :
    mdotSignature (s + ts.length) rs
      = .ok (List.range' 97 (s + ts.length) :: cLab (97 + s) (97 + s + ts.length) ts,
          List.range' 97 s ++ List.range' (97 + s + ts.length) ts.sum) := by
  have hlen : rs.length = ts.length := by rw [← hrs]; simp
  have hpos : ts.length ≠ 0 := by simpa using hts
  have h1 : lastSlice (List.range' 97 (s + ts.length)) rs.length = List.range' (97 + s) ts.length := by
    rw [hlen, lastSlice, if_neg hpos, List.length_range', Nat.add_sub_cancel,
      ← List.range'_append_1, List.drop_left' (by simp)]
  have h2 : initSlice (List.range' 97 (s + ts.length)) rs.length = List.range' 97 s := by
    rw [hlen, initSlice, if_neg hpos, List.length_range', Nat.add_sub_cancel,
      ← List.range'_append_1, List.take_left' (by simp)]
  simp only [mdotSignature, h1, h2, bind, Except.bind, pure, Except.pure]
  rw [cSyms_eq _ _ _ _ _ (by omega), hrs]
  simp [cLab_tails, Nat.add_assoc]

/-! #### Sizes -/

theorem labelDim_eq {ops : List (List ℕ × NdArray K)} {D : ℕ → ℕ}
    (h : ∀ p ∈ ops.flatMap (fun o => o.1.zip o.2.shape), p.2 = D p.1) (l : ℕ)
    (hl : ∃ p ∈ ops.flatMap (fun o => o.1.zip o.2.shape), p.1 = l) :
    labelDim ops l = D l ∧ ∀ d ∈ labelSizes ops l, d = D l := by
  have hall : ∀ d ∈ labelSizes ops l, d = D l := by
    intro d hd
    obtain ⟨p, hp, he⟩ := List.mem_filterMap.1 hd
    split_ifs at he with hpl
    injection he with he
    rw [← he, h p hp, hpl]
  refine ⟨?_, hall⟩
  obtain ⟨p, hp, hpl⟩ := hl
  have hmem : D l ∈ labelSizes ops l :=
    List.mem_filterMap.2 ⟨p, hp, by rw [if_pos hpl, h p hp, hpl]⟩
  unfold labelDim
  rcases hf : (labelSizes ops l).find? (fun d => d != 1) with _ | d
  · rw [List.find?_eq_none] at hf
    have := hf _ hmem
    simp at this
    simp [this]
  · exact hall d (List.mem_of_find?_eq_some hf)

theorem operandIndex_eq {ls shape : List ℕ} {env : ℕ → ℕ} (h : InBox (ls.map env) shape) :
    operandIndex ls shape env = ls.map env := by
  induction ls generalizing shape with
  | nil => rfl
  | cons l ls ih =>
    cases h with
    | cons h1 h2 =>
      rename_i d ds
      simp only [operandIndex, List.zip_cons_cons, List.map_cons]
      have := ih h2
      rw [operandIndex] at this
      rw [this]
      by_cases hd : d = 1
      · rw [if_pos hd]; subst hd; simp at h1; rw [h1]
      · rw [if_neg hd]

/-! #### Values of the labels -/

/-- Values `a` for the labels `b, b + 1, ...`. -/
def setMany (env : ℕ → ℕ) : ℕ → List ℕ → ℕ → ℕ
  | _, [] => env
  | b, a :: t => setMany (setLabel env b a) (b + 1) t

theorem setMany_outside (env : ℕ → ℕ) (b : ℕ) (a : List ℕ) (l : ℕ) (hl : l < b ∨ b + a.length ≤ l) :
    setMany env b a l = env l := by
  induction a generalizing env b with
  | nil => rfl
  | cons x t ih =>
    rw [setMany, ih _ _ (by simp at hl; omega), setLabel, if_neg (by simp at hl; omega)]

theorem setMany_map (env : ℕ → ℕ) (b : ℕ) (a : List ℕ) :
    (List.range' b a.length).map (setMany env b a) = a := by
  induction a generalizing env b with
  | nil => rfl
  | cons x t ih =>
    simp only [List.length_cons, List.range'_succ, List.map_cons, setMany]
    rw [ih, setMany_outside _ _ _ _ (by omega), setLabel, if_pos rfl]

theorem sumLabels_eq (f : (ℕ → ℕ) → K) (D : ℕ → ℕ) (b : ℕ) (ds : List ℕ)
    (hD : (List.range' b ds.length).map D = ds) (env : ℕ → ℕ) :
    sumLabels f ((List.range' b ds.length).map fun l => (l, D l)) env
      = sumIdx ds fun a => f (setMany env b a) := by
  induction ds generalizing b env with
  | nil => rfl
  | cons d ds ih =>
    simp only [List.length_cons, List.range'_succ, List.map_cons, List.cons.injEq] at hD ⊢
    rw [sumLabels, sumIdx, hD.1]
    exact Finset.sum_congr rfl fun i _ => ih (b + 1) hD.2 _

theorem outEnv_map (ls is : List ℕ) (hn : ls.Nodup) (hlen : ls.length = is.length) :
    ls.map (outEnv ls is) = is := by
  induction ls generalizing is with
  | nil => cases is <;> simp_all
  | cons l ls ih =>
    cases is with
    | nil => simp at hlen
    | cons i is =>
      rw [List.nodup_cons] at hn
      simp only [List.map_cons, outEnv, setLabel, if_pos]
      congr 1
      rw [← ih is hn.2 (by simpa using hlen)]
      apply List.map_congr_left
      intro m hm
      rw [ih is hn.2 (by simpa using hlen), setLabel, if_neg (fun h : m = l => hn.1 (h ▸ hm))]

theorem cLab_map (e : ℕ → ℕ) (b ic : ℕ) (a : List ℕ) (Js : List (List ℕ)) (hlen : a.length = Js.length)
    (ha : (List.range' b a.length).map e = a)
    (hJ : (List.range' ic (Js.map List.length).sum).map e = Js.flatten) :
    (cLab b ic (Js.map List.length)).map (fun ls => ls.map e) = List.zipWith (· :: ·) a Js := by
  induction Js generalizing a b ic with
  | nil => cases a <;> simp_all [cLab]
  | cons J Js ih =>
    cases a with
    | nil => simp at hlen
    | cons x a =>
      simp only [List.length_cons, List.range'_succ, List.map_cons, List.cons.injEq, List.sum_cons,
        List.flatten_cons] at ha hJ hlen ⊢
      rw [← List.range'_append_1, List.map_append] at hJ
      obtain ⟨h1, h2⟩ := List.append_inj hJ (by simp)
      simp only [cLab, List.map_cons, List.zipWith_cons_cons]
      rw [ih (b + 1) (ic + J.length) a (by omega) ha.2 h2, ha.1, h1]

theorem filter_range' (b k N : ℕ) (h : b + k ≤ N) (p : ℕ → Bool)
    (hp : ∀ l < N, p l = true ↔ b ≤ l ∧ l < b + k) : (List.range N).filter p = List.range' b k := by
  have h1 : List.range N = List.range' 0 b ++ (List.range' b k ++ List.range' (b + k) (N - (b + k))) := by
    rw [List.range'_append_1, List.range_eq_range']
    have := List.range'_append_1 (s := 0) (m := b) (n := k + (N - (b + k)))
    rw [Nat.zero_add] at this
    rw [this]
    congr 1
    omega
  rw [h1, List.filter_append, List.filter_append]
  rw [List.filter_eq_nil_iff.2, List.filter_eq_self.2, List.filter_eq_nil_iff.2]
  · simp
  · intro l hl
    rw [List.mem_range'_1] at hl
    rw [hp l (by omega)]
    omega
  · intro l hl
    rw [List.mem_range'_1] at hl
    rw [hp l (by omega)]
    omega
  · intro l hl
    rw [List.mem_range'_1] at hl
    rw [hp l (by omega)]
    omega

/-! #### The product -/

theorem forall2_range' {ds : List ℕ} (D : ℕ → ℕ) (b : ℕ) (h : (List.range' b ds.length).map D = ds) :
    ∀ p ∈ (List.range' b ds.length).zip ds, p.2 = D p.1 := by
  intro p hp
  rw [List.mem_iff_getElem] at hp
  obtain ⟨i, hi, rfl⟩ := hp
  simp only [List.length_zip, List.length_range', min_self] at hi
  have := congrArg (fun l => l[i]?) h
  simp only [List.getElem?_map, List.getElem?_range', hi, Option.map_some,
    List.getElem?_eq_getElem] at this
  injection this with this
  rw [one_mul] at this
  simp [this]

theorem cLab_sizes (D : ℕ → ℕ) (C : List (NdArray K)) (hne : ∀ c ∈ C, c.shape ≠ []) (b ic : ℕ)
    (ha : (List.range' b C.length).map D = firstDims C)
    (hJ : (List.range' ic ((restDims C).map List.length).sum).map D = (restDims C).flatten) :
    ∀ p ∈ ((cLab b ic ((restDims C).map List.length)).zip C).flatMap (fun o => o.1.zip o.2.shape),
      p.2 = D p.1 := by
  induction C generalizing b ic with
  | nil => simp [restDims, cLab]
  | cons c C ih =>
    simp only [firstDims, restDims, List.length_cons, List.range'_succ, List.map_cons, List.cons.injEq,
      List.sum_cons, List.flatten_cons] at ha hJ ⊢
    rw [← List.range'_append_1, List.map_append] at hJ
    obtain ⟨h1, h2⟩ := List.append_inj hJ (by simp)
    obtain ⟨d, tl, hc⟩ := List.exists_cons_of_ne_nil (hne c (by simp))
    simp only [cLab, List.zip_cons_cons, List.flatMap_cons, List.mem_append]
    rintro p (hp | hp)
    · rw [hc] at hp ha h1
      simp only [List.tail_cons, List.zip_cons_cons, List.mem_cons, List.headD_cons] at hp ha h1
      rcases hp with rfl | hp
      · exact ha.1.symm
      · exact forall2_range' D ic h1 p hp
    · exact ih (fun c hc => hne c (by simp [hc])) (b + 1) _ ha.2 h2 p hp

theorem cLab_lengths (C : List (NdArray K)) (hne : ∀ c ∈ C, c.shape ≠ []) (b ic : ℕ) :
    ((cLab b ic ((restDims C).map List.length)).zip C).all
      (fun o => decide (o.1.length = o.2.shape.length)) = true := by
  induction C generalizing b ic with
  | nil => simp [restDims, cLab]
  | cons c C ih =>
    obtain ⟨d, tl, hc⟩ := List.exists_cons_of_ne_nil (hne c (by simp))
    simp only [restDims, List.map_cons, cLab, List.zip_cons_cons, List.all_cons, Bool.and_eq_true]
    refine ⟨by simp [hc], ih (fun c hc => hne c (by simp [hc])) _ _⟩

theorem prod_cLab (e : ℕ → ℕ) (C : List (NdArray K)) (hne : ∀ c ∈ C, c.shape ≠ []) (a : List ℕ)
    (Js : List (List ℕ)) (ls : List (List ℕ)) (ha : InBox a (firstDims C))
    (hJ : List.Forall₂ (fun J c => InBox J c.shape.tail) Js C)
    (hls : ls.map (fun l => l.map e) = List.zipWith (· :: ·) a Js) :
    ((ls.zip C).map fun o => o.2.get (operandIndex o.1 o.2.shape e)).prod = prodC C a Js := by
  induction C generalizing a Js ls with
  | nil => cases ls <;> simp [prodC]
  | cons c C ih =>
    obtain ⟨d, tl, hc⟩ := List.exists_cons_of_ne_nil (hne c (by simp))
    cases hJ with
    | cons hJ1 hJ2 =>
      rename_i J Js
      simp only [firstDims, List.map_cons] at ha
      cases ha with
      | cons ha1 ha2 =>
        rename_i x a
        cases ls with
        | nil => simp at hls
        | cons l ls =>
          simp only [List.map_cons, List.zipWith_cons_cons, List.cons.injEq] at hls
          simp only [List.zip_cons_cons, List.map_cons, List.prod_cons, prodC]
          rw [ih (fun c hc => hne c (by simp [hc])) a Js ls ha2 hJ2 hls.2, operandIndex_eq, hls.1]
          rw [hls.1, hc]
          rw [hc] at ha1 hJ1
          exact .cons ha1 hJ1

/-- **C99, products.**  The array returned by `mdot` with at least one matrix: its shape and its entries. -/
theorem C99_mdot (M : NdArray K) (C : List (NdArray K)) (s : List ℕ) (hC : C ≠ [])
    (hne : ∀ c ∈ C, c.shape ≠ []) (hM : M.shape = s ++ firstDims C)
    (h26 : M.shape.length + ((restDims C).map List.length).sum ≤ 26) :
    ∃ R, mdot M C = .ok R ∧ R.shape = s ++ (restDims C).flatten ∧
      ∀ lead Js, InBox lead s → List.Forall₂ (fun J c => InBox J c.shape.tail) Js C →
        R.get (lead ++ Js.flatten) = contraction M C lead Js := by
  set ts := (restDims C).map List.length with hts
  have hlt : ts.length = C.length := by simp [hts, restDims]
  have hlM : M.shape.length = s.length + ts.length := by rw [hM]; simp [hlt, firstDims]
  have htne : ts ≠ [] := by
    intro h
    rw [h] at hlt
    exact hC (List.length_eq_zero_iff.1 hlt.symm)
  have hsig := signature_eq s.length ts htne (C.map fun c => c.shape.length) (by
    simp [hts, restDims, List.map_map, Function.comp_def])
  set b := 97 + s.length with hb
  set T := ts.sum with hT
  set dims := M.shape ++ (restDims C).flatten with hdims
  have hdl : dims.length = s.length + ts.length + T := by
    rw [hdims, List.length_append, hlM, List.length_flatten, hT]
  let D : ℕ → ℕ := fun l => dims.getD (l - 97) 0
  have hDall : (List.range' 97 dims.length).map D = dims := by
    apply List.ext_getElem
    · simp
    · intro i h1 h2
      simp [D, List.getD_eq_getElem?_getD, List.getElem?_eq_getElem h2]
  have hsplit : (List.range' 97 s.length).map D = s ∧ (List.range' b ts.length).map D = firstDims C ∧
      (List.range' (b + ts.length) T).map D = (restDims C).flatten := by
    rw [hdl, ← List.range'_append_1, ← List.range'_append_1, List.map_append, List.map_append, hdims,
      hM] at hDall
    obtain ⟨h1, h2⟩ := List.append_inj hDall (by simp [firstDims, hlt])
    obtain ⟨h3, h4⟩ := List.append_inj h1 (by simp)
    exact ⟨h3, h4, by rw [hb, Nat.add_assoc]; exact h2⟩
  obtain ⟨hD1, hD2, hD3⟩ := hsplit
  have hDM : (List.range' 97 (s.length + ts.length)).map D = M.shape := by
    rw [← List.range'_append_1, List.map_append, hD1, hD2, hM]
  set labs := cLab b (b + ts.length) ts with hlabs
  set ops := (List.range' 97 (s.length + ts.length) :: labs).zip (M :: C) with hops
  have hsizes : ∀ p ∈ ops.flatMap (fun o => o.1.zip o.2.shape), p.2 = D p.1 := by
    rw [hops, List.zip_cons_cons, List.flatMap_cons]
    intro p hp
    rcases List.mem_append.1 hp with hp | hp
    · have := forall2_range' (ds := M.shape) D 97 (by rw [hlM]; exact hDM) p
      rw [hlM] at this
      exact this hp
    · exact cLab_sizes D C hne b (b + ts.length) (by rw [← hlt]; exact hD2) hD3 p hp
  have hlmem : ∀ l, l ∈ (List.range' 97 (s.length + ts.length) :: labs).flatten
      ↔ 97 ≤ l ∧ l < 97 + s.length + ts.length + T := by
    intro l
    rw [List.flatten_cons, List.mem_append, List.mem_range'_1, hlabs, mem_cLab]
    omega
  have hall : (ops.all fun o => decide (o.1.length = o.2.shape.length)) = true := by
    rw [hops, List.zip_cons_cons, List.all_cons, Bool.and_eq_true]
    exact ⟨by simp [hlM], cLab_lengths C hne _ _⟩
  have hex : ∀ l, 97 ≤ l → l < 97 + s.length + ts.length + T →
      ∃ p ∈ ops.flatMap (fun o => o.1.zip o.2.shape), p.1 = l := by
    intro l h1 h2
    have hl := (hlmem l).2 ⟨h1, h2⟩
    obtain ⟨ls, hls, hl⟩ := List.mem_flatten.1 hl
    obtain ⟨i, hi, hi'⟩ := List.mem_iff_getElem.1 hls
    have hlen2 : (List.range' 97 (s.length + ts.length) :: labs).length = (M :: C).length := by
      simp [hlabs, cLab_length, hlt]
    have hmem : (ls, (M :: C)[i]'(by rw [← hlen2]; exact hi)) ∈ ops := by
      rw [List.mem_iff_getElem]
      refine ⟨i, by rw [hops, List.length_zip, ← hlen2, min_self]; exact hi, ?_⟩
      simp only [hops, List.getElem_zip, hi']
    have hlen3 := List.all_eq_true.1 hall _ hmem
    simp only [decide_eq_true_eq] at hlen3
    obtain ⟨j, hj, hj'⟩ := List.mem_iff_getElem.1 hl
    refine ⟨(l, ((M :: C)[i]'(by rw [← hlen2]; exact hi)).shape[j]'(by rw [← hlen3]; exact hj)), ?_, rfl⟩
    refine List.mem_flatMap.2 ⟨_, hmem, ?_⟩
    rw [List.mem_iff_getElem]
    refine ⟨j, by rw [List.length_zip, ← hlen3, min_self]; exact hj, ?_⟩
    simp [hj']
  have hdim : ∀ l, 97 ≤ l → l < 97 + s.length + ts.length + T → labelDim ops l = D l :=
    fun l h1 h2 => (labelDim_eq hsizes l (hex l h1 h2)).1
  have hbound : 97 + s.length + ts.length + T ≤ 123 := by
    rw [hlM] at h26
    omega
  have hout : ∀ l ∈ List.range' 97 s.length ++ List.range' (b + ts.length) T,
      97 ≤ l ∧ l < 97 + s.length + ts.length + T := by
    intro l hl
    rw [List.mem_append, List.mem_range'_1, List.mem_range'_1] at hl
    omega
  have hnodup : (List.range' 97 s.length ++ List.range' (b + ts.length) T).Nodup := by
    rw [List.nodup_append]
    refine ⟨List.nodup_range', List.nodup_range', ?_⟩
    intro x hx y hy
    rw [List.mem_range'_1] at hx hy
    omega
  have hsummed : (List.range 128).filter (fun l =>
      decide (l ∈ (List.range' 97 (s.length + ts.length) :: labs).flatten)
        && !decide (l ∈ List.range' 97 s.length ++ List.range' (b + ts.length) T))
      = List.range' b ts.length := by
    apply filter_range' b ts.length 128 (by omega)
    intro l _
    rw [Bool.and_eq_true, decide_eq_true_eq, Bool.not_eq_true', decide_eq_false_iff_not, hlmem,
      List.mem_append, List.mem_range'_1, List.mem_range'_1]
    omega
  have hletters : ((List.range' 97 (s.length + ts.length) :: labs).flatten
      ++ (List.range' 97 s.length ++ List.range' (b + ts.length) T)).all isLetter = true := by
    rw [List.all_eq_true]
    intro l hl
    have : 97 ≤ l ∧ l < 97 + s.length + ts.length + T := by
      rcases List.mem_append.1 hl with h | h
      · exact (hlmem l).1 h
      · exact hout l h
    simp [isLetter]
    omega
  have hdimall : ((List.range' 97 (s.length + ts.length) :: labs).flatten).all
      (fun l => (labelSizes ops l).all fun d => d == 1 || d == labelDim ops l) = true := by
    rw [List.all_eq_true]
    intro l hl
    rw [List.all_eq_true]
    intro d hd
    obtain ⟨h1, h2⟩ := (hlmem l).1 hl
    obtain ⟨h3, h4⟩ := labelDim_eq hsizes l (hex l h1 h2)
    rw [h3, h4 d hd]
    simp
  have houtall : (decide (List.range' 97 s.length ++ List.range' (b + ts.length) T).Nodup &&
      (List.range' 97 s.length ++ List.range' (b + ts.length) T).all
        (fun l => decide (l ∈ (List.range' 97 (s.length + ts.length) :: labs).flatten))) = true := by
    rw [Bool.and_eq_true, decide_eq_true_eq, List.all_eq_true]
    exact ⟨hnodup, fun l hl => decide_eq_true ((hlmem l).2 (hout l hl))⟩
  have hlen0 : (List.range' 97 (s.length + ts.length) :: labs).length = (M :: C).length := by
    simp [hlabs, cLab_length, hlt]
  refine ⟨⟨(List.range' 97 s.length ++ List.range' (b + ts.length) T).map (labelDim ops), fun idx =>
        sumLabels (fun env => (ops.map fun o => o.2.get (operandIndex o.1 o.2.shape env)).prod)
          ((List.range' b ts.length).map fun l => (l, labelDim ops l))
          (outEnv (List.range' 97 s.length ++ List.range' (b + ts.length) T) idx)⟩, ?_, ?_, ?_⟩
  · simp only [mdot]
    rw [hlM, hsig]
    simp only [bind, Except.bind, einsum]
    rw [if_neg (by rw [hlen0]; simp), ← hops, hletters, hall, houtall, hdimall, hsummed]
    simp
  · show (List.range' 97 s.length ++ List.range' (b + ts.length) T).map (labelDim ops) = _
    rw [List.map_congr_left (g := D) (fun l hl => hdim l (hout l hl).1 (hout l hl).2), List.map_append,
      hD1, hD3]
  · intro lead Js hlead hJs
    have hleadlen := hlead.length
    have hJlen : Js.map List.length = ts := by
      rw [hts, restDims, List.map_map]
      clear_value ts labs ops
      clear * - hJs
      induction hJs with
      | nil => rfl
      | cons h1 h2 ih => simp only [List.map_cons, ih, Function.comp_apply, InBox.length h1]
    have hfl : Js.flatten.length = T := by rw [List.length_flatten, hJlen]
    show sumLabels _ ((List.range' b ts.length).map fun l => (l, labelDim ops l)) _ = _
    rw [List.map_congr_left (g := fun l => (l, D l)) (fun l hl => by
      rw [List.mem_range'_1] at hl
      rw [hdim l (by omega) (by omega)])]
    have hfd : (firstDims C).length = ts.length := by simp [firstDims, hlt]
    have hD2' : (List.range' b (firstDims C).length).map D = firstDims C := by rw [hfd]; exact hD2
    rw [← hfd, sumLabels_eq _ D b (firstDims C) hD2']
    refine sumIdx_congr fun a ha => ?_
    have hal : a.length = ts.length := by rw [ha.length, hfd]
    rw [hfd]
    set e := setMany (outEnv (List.range' 97 s.length ++ List.range' (b + ts.length) T)
      (lead ++ Js.flatten)) b a with he
    have hmap := outEnv_map (List.range' 97 s.length ++ List.range' (b + ts.length) T)
      (lead ++ Js.flatten) hnodup (by simp [hleadlen, hfl, -List.length_flatten])
    have hmap2 : (List.range' 97 s.length ++ List.range' (b + ts.length) T).map e
        = lead ++ Js.flatten := by
      conv_rhs => rw [← hmap]
      apply List.map_congr_left
      intro l hl
      rw [he, setMany_outside]
      rw [List.mem_append, List.mem_range'_1, List.mem_range'_1] at hl
      omega
    rw [List.map_append] at hmap2
    obtain ⟨e1, e2⟩ := List.append_inj hmap2 (by simp [hleadlen])
    have e3 : (List.range' b a.length).map e = a := setMany_map _ _ _
    rw [hops, List.zip_cons_cons, List.map_cons, List.prod_cons]
    have hJl : a.length = Js.length := by rw [hal, hlt, hJs.length_eq]
    congr 1
    · have hMi : (List.range' 97 (s.length + ts.length)).map e = lead ++ a := by
        rw [← List.range'_append_1, List.map_append, e1, ← hal, e3]
      rw [operandIndex_eq, hMi]
      rw [hMi, hM]
      exact List.rel_append hlead ha
    · apply prod_cLab e C hne a Js labs ha hJs
      rw [hlabs, ← hJlen]
      apply cLab_map e b _ a Js hJl e3
      rw [hJlen]
      exact e2

/-! ### The other products -/

theorem sumIdx_sum (ds : List ℕ) (n : ℕ) (f : ℕ → List ℕ → K) :
    sumIdx ds (fun a => ∑ k ∈ range n, f k a) = ∑ k ∈ range n, sumIdx ds (f k) := by
  induction ds generalizing f with
  | nil => rfl
  | cons d ds ih =>
    simp only [sumIdx]
    rw [Finset.sum_comm]
    exact Finset.sum_congr rfl fun i _ => ih fun k t => f k (i :: t)

theorem sumIdx_mul (ds : List ℕ) (c : K) (f : List ℕ → K) :
    sumIdx ds (fun a => c * f a) = c * sumIdx ds f := by
  induction ds generalizing f with
  | nil => rfl
  | cons d ds ih =>
    simp only [sumIdx, Finset.mul_sum]
    exact Finset.sum_congr rfl fun i _ => ih fun t => f (i :: t)

theorem tensordot0_eq (R c : NdArray K) (s rest tl : List ℕ) (d : ℕ) (hR : R.shape = s ++ d :: rest)
    (hc : c.shape = d :: tl) :
    ∃ R', tensordot0 R c (s.length : ℤ) = .ok R' ∧ R'.shape = s ++ rest ++ tl ∧
      ∀ lead i J, lead.length = s.length → i.length = rest.length →
        R'.get (lead ++ i ++ J) = ∑ k ∈ range d, R.get (lead ++ k :: i) * c.get (k :: J) := by
  have h1 : R.shape[s.length]? = some d := by rw [hR]; simp
  have h2 : R.shape.length - 1 = s.length + rest.length := by rw [hR]; simp
  have h0 : ¬ (s.length : ℤ) < 0 := by omega
  refine ⟨⟨R.shape.eraseIdx s.length ++ tl, fun idx =>
    ∑ k ∈ range d, R.get ((idx.take (R.shape.length - 1)).take s.length ++ k ::
      (idx.take (R.shape.length - 1)).drop s.length) * c.get (k :: idx.drop (R.shape.length - 1))⟩,
    ?_, ?_, ?_⟩
  · unfold tensordot0
    simp only [if_neg h0, Int.toNat_natCast, h1, hc, if_true]
  · show R.shape.eraseIdx s.length ++ tl = _
    rw [hR, List.eraseIdx_append_of_length_le (le_refl _)]
    simp
  · intro lead i J hl hi
    show ∑ k ∈ range d, _ = _
    rw [h2]
    have ht : (lead ++ i ++ J).take (s.length + rest.length) = lead ++ i :=
      List.take_left' (by simp [hl, hi])
    have hd : (lead ++ i ++ J).drop (s.length + rest.length) = J :=
      List.drop_left' (by simp [hl, hi])
    rw [ht, hd, List.take_left' hl, List.drop_left' hl]

theorem foldl_tensordot (s : List ℕ) (C : List (NdArray K)) (hne : ∀ c ∈ C, c.shape ≠ [])
    (R : NdArray K) (acc : List ℕ) (hR : R.shape = s ++ firstDims C ++ acc) :
    ∃ R', C.foldlM (fun resp m => tensordot0 resp m (s.length : ℤ)) R = .ok R' ∧
      R'.shape = s ++ acc ++ (restDims C).flatten ∧
      ∀ lead J Js, InBox lead s → J.length = acc.length →
        List.Forall₂ (fun J c => InBox J c.shape.tail) Js C →
        R'.get (lead ++ J ++ Js.flatten)
          = sumIdx (firstDims C) fun a => R.get (lead ++ a ++ J) * prodC C a Js := by
  induction C generalizing R acc with
  | nil =>
    refine ⟨R, rfl, by simpa [firstDims, restDims] using hR, ?_⟩
    intro lead J Js _ _ hJs
    cases hJs
    simp [firstDims, sumIdx, prodC]
  | cons c C ih =>
    obtain ⟨d, tl, hc⟩ := List.exists_cons_of_ne_nil (hne c (by simp))
    have hR2 : R.shape = s ++ d :: (firstDims C ++ acc) := by
      rw [hR]; simp [firstDims, hc]
    obtain ⟨R1, g1, g2, g3⟩ := tensordot0_eq R c s (firstDims C ++ acc) tl d hR2 hc
    obtain ⟨R', k1, k2, k3⟩ := ih (fun c hc => hne c (by simp [hc])) R1 (acc ++ tl) (by
      rw [g2]; simp [List.append_assoc])
    refine ⟨R', ?_, ?_, ?_⟩
    · simp only [List.foldlM_cons, g1, bind, Except.bind]
      exact k1
    · rw [k2]; simp [restDims, hc, List.append_assoc]
    · intro lead J Js hl hJ hJs
      cases hJs with
      | cons hJ1 hJ2 =>
        rename_i J1 Js
        rw [hc] at hJ1
        have e := k3 lead (J ++ J1) Js hl (by rw [List.length_append, hJ, hJ1.length]; simp) hJ2
        rw [List.flatten_cons, show lead ++ J ++ (J1 ++ Js.flatten) = lead ++ (J ++ J1) ++ Js.flatten by
          simp [List.append_assoc], e]
        simp only [firstDims, List.map_cons, hc, List.headD_cons, sumIdx, prodC]
        rw [← sumIdx_sum]
        refine sumIdx_congr fun a ha => ?_
        have := g3 lead (a ++ J) J1 hl.length (by
          rw [List.length_append, List.length_append, hJ, ha.length]; rfl)
        rw [show lead ++ a ++ (J ++ J1) = lead ++ (a ++ J) ++ J1 by simp [List.append_assoc], this,
          Finset.sum_mul]
        refine Finset.sum_congr rfl fun k _ => ?_
        rw [mul_assoc, List.append_assoc, List.cons_append]

/-- **C99, the older implementation.**  `multidot_old` returns the same contraction, whatever the number
of dimensions. -/
theorem C99_multidot_old (M : NdArray K) (C : List (NdArray K)) (s : List ℕ)
    (hne : ∀ c ∈ C, c.shape ≠ []) (hM : M.shape = s ++ firstDims C) :
    ∃ R, multidotOld M C = .ok R ∧ R.shape = s ++ (restDims C).flatten ∧
      ∀ lead Js, InBox lead s → List.Forall₂ (fun J c => InBox J c.shape.tail) Js C →
        R.get (lead ++ Js.flatten) = contraction M C lead Js := by
  obtain ⟨R, h1, h2, h3⟩ := foldl_tensordot s C hne M [] (by simpa using hM)
  have hlen : ((M.shape.length : ℤ) - C.length) = (s.length : ℤ) := by
    rw [hM, List.length_append]
    simp [firstDims]
  refine ⟨R, by rw [multidotOld, hlen]; exact h1, by simpa using h2, ?_⟩
  intro lead Js hl hJs
  have := h3 lead [] Js hl rfl hJs
  simpa [contraction] using this

/-- **C99, two arrays.**  `sdot(U, V)` sums over the last dimension of `U` and the first of `V`. -/
theorem C99_sdot (U V : NdArray K) (s tl : List ℕ) (d : ℕ) (hU : U.shape = s ++ [d])
    (hV : V.shape = d :: tl) :
    ∃ R, sdot U V = .ok R ∧ R.shape = s ++ tl ∧
      ∀ i j, InBox i s → InBox j tl →
        R.get (i ++ j) = ∑ k ∈ range d, U.get (i ++ [k]) * V.get (k :: j) := by
  obtain ⟨R, h1, h2, h3⟩ := tensordot0_eq U V s [] tl d hU hV
  refine ⟨R, ?_, by simpa using h2, ?_⟩
  · rw [sdot, hU, List.length_append]
    simpa using h1
  · intro i j hi _
    simpa using h3 i [] j hi.length rfl

/-- **C99, limit.**  The signature has one letter per dimension, from `a` on; with more than 26
dimensions in all, `mdot` raises a `ValueError`. -/
theorem C99_too_many_dimensions (M : NdArray K) (C : List (NdArray K)) (s : List ℕ) (hC : C ≠ [])
    (hM : M.shape = s ++ firstDims C) (h26 : 26 < M.shape.length + ((restDims C).map List.length).sum) :
    mdot M C = .error .valueError := by
  set ts := (restDims C).map List.length with hts
  have hlt : ts.length = C.length := by simp [hts, restDims]
  have hlM : M.shape.length = s.length + ts.length := by rw [hM]; simp [hlt, firstDims]
  have htne : ts ≠ [] := by
    intro h
    rw [h] at hlt
    exact hC (List.length_eq_zero_iff.1 hlt.symm)
  have hsig := signature_eq s.length ts htne (C.map fun c => c.shape.length) (by
    simp [hts, restDims, List.map_map, Function.comp_def])
  have hmem : 123 ∈ (List.range' 97 (s.length + ts.length) ::
      cLab (97 + s.length) (97 + s.length + ts.length) ts).flatten := by
    rw [List.flatten_cons, List.mem_append, List.mem_range'_1, mem_cLab]
    omega
  have hbad : ((List.range' 97 (s.length + ts.length) ::
      cLab (97 + s.length) (97 + s.length + ts.length) ts).flatten
      ++ (List.range' 97 s.length ++ List.range' (97 + s.length + ts.length) ts.sum)).all isLetter
      = false := by
    rw [List.all_eq_false]
    exact ⟨123, List.mem_append_left _ hmem, by decide⟩
  simp only [mdot, hlM, hsig, bind, Except.bind, einsum]
  rw [hbad]
  simp

/-- **C99 fails** for an empty list of arrays: `mdot(M)` is then the sum of all the entries of `M`
instead of `M`, since `M_syms[:-0]` is empty. -/
theorem C99_empty_fails : ∃ (M R : NdArray ℚ), M.shape = [2] ∧ mdot M [] = .ok R ∧ R.shape = [] ∧
    R.get [] = 7 ∧ ∃ R', multidotOld M [] = .ok R' ∧ R'.shape = [2] := by
  refine ⟨⟨[2], fun i => if i = [0] then 3 else 4⟩, _, rfl, rfl, rfl, ?_, _, rfl, rfl⟩
  decide +kernel

/-! ### The operators -/

theorem prodC_operator (A X B : List (NdArray K)) (e : List ℕ) (a : List ℕ)
    (hA : List.Forall₂ (fun (A : NdArray K) e => ∃ d, A.shape = [d, e]) A e)
    (hX : List.Forall₂ (fun (X : NdArray K) e => X.shape = [e]) X e)
    (hB : List.Forall₂ (fun (p : NdArray K × NdArray K) (B : NdArray K) => B.shape = [p.1.shape.headD 0] ∧
      ∀ i < p.1.shape.headD 0, B.get [i] = ∑ j ∈ range (p.2.shape.headD 0), p.1.get [i, j] * p.2.get [j])
      (A.zip X) B)
    (ha : InBox a (firstDims A)) :
    sumIdx e (fun j => prodC A a (j.map fun i => [i]) * prodC X j (j.map fun _ => []))
      = prodC B a (a.map fun _ => []) := by
  induction hA generalizing X B a with
  | nil =>
    cases hX
    simp only [List.zip_nil_left] at hB
    cases hB
    simp [sumIdx, prodC]
  | cons hA1 hA2 ih =>
    rename_i A0 e0 A e
    obtain ⟨d, hA1⟩ := hA1
    cases hX with
    | cons hX1 hX2 =>
      rename_i X0 X
      rw [List.zip_cons_cons] at hB
      cases hB with
      | cons hB1 hB2 =>
        rename_i B0 B
        simp only [firstDims, List.map_cons, hA1, List.headD_cons] at ha
        cases ha with
        | cons ha1 ha2 =>
          rename_i a0 a
          simp only [hA1, hX1, List.headD_cons] at hB1
          simp only [sumIdx, List.map_cons, prodC]
          rw [hB1.2 a0 ha1, ← ih X B a hX2 hB2 ha2, Finset.sum_mul]
          refine Finset.sum_congr rfl fun i _ => ?_
          rw [← sumIdx_mul]
          refine sumIdx_congr fun j _ => ?_
          ring

theorem sumIdx_comm (ds es : List ℕ) (f : List ℕ → List ℕ → K) :
    sumIdx ds (fun a => sumIdx es fun b => f a b) = sumIdx es fun b => sumIdx ds fun a => f a b := by
  induction ds generalizing f with
  | nil => rfl
  | cons d ds ih =>
    simp only [sumIdx]
    rw [sumIdx_sum]
    exact Finset.sum_congr rfl fun i _ => ih fun t b => f (i :: t) b

theorem matrices_dims {A : List (NdArray K)} {e : List ℕ}
    (hA : List.Forall₂ (fun (A : NdArray K) e => ∃ d, A.shape = [d, e]) A e) :
    (∀ c ∈ A, c.shape ≠ []) ∧ restDims A = e.map (fun x => [x]) ∧ A.length = e.length := by
  induction hA with
  | nil => exact ⟨by simp, rfl, rfl⟩
  | cons h1 _ ih =>
    obtain ⟨d, h1⟩ := h1
    refine ⟨?_, ?_, by simp [ih.2.2]⟩
    · intro c hc
      rcases List.mem_cons.1 hc with rfl | hc
      · rw [h1]; simp
      · exact ih.1 c hc
    · have := ih.2.1
      simp only [restDims] at this
      simp [restDims, h1, this]

theorem vectors_dims {X : List (NdArray K)} {e : List ℕ}
    (hX : List.Forall₂ (fun (X : NdArray K) e => X.shape = [e]) X e) :
    (∀ c ∈ X, c.shape ≠ []) ∧ restDims X = List.replicate X.length [] ∧ firstDims X = e := by
  induction hX with
  | nil => exact ⟨by simp, rfl, rfl⟩
  | cons h1 _ ih =>
    refine ⟨?_, ?_, ?_⟩
    · intro c hc
      rcases List.mem_cons.1 hc with rfl | hc
      · rw [h1]; simp
      · exact ih.1 c hc
    · have := ih.2.1
      simp only [restDims] at this
      simp [restDims, h1, this, List.replicate_succ]
    · have := ih.2.2
      simp only [firstDims] at this
      simp only [firstDims, List.map_cons, h1, this, List.headD_cons]

theorem products_dims {A X B : List (NdArray K)} {e : List ℕ}
    (hA : List.Forall₂ (fun (A : NdArray K) e => ∃ d, A.shape = [d, e]) A e)
    (hX : List.Forall₂ (fun (X : NdArray K) e => X.shape = [e]) X e)
    (hB : List.Forall₂ (fun (p : NdArray K × NdArray K) (B : NdArray K) => sdot p.1 p.2 = .ok B)
      (A.zip X) B) :
    List.Forall₂ (fun (p : NdArray K × NdArray K) (B : NdArray K) => B.shape = [p.1.shape.headD 0] ∧
      ∀ i < p.1.shape.headD 0, B.get [i] = ∑ j ∈ range (p.2.shape.headD 0), p.1.get [i, j] * p.2.get [j])
      (A.zip X) B := by
  induction hA generalizing X B with
  | nil => simp only [List.zip_nil_left] at hB ⊢; cases hB; exact .nil
  | cons h1 _ ih =>
    cases hX with
    | cons hX1 hX2 =>
      rw [List.zip_cons_cons] at hB ⊢
      cases hB with
      | cons hB1 hB2 =>
        refine .cons ?_ (ih hX2 hB2)
        obtain ⟨d, h1⟩ := h1
        obtain ⟨R, g1, g2, g3⟩ := C99_sdot _ _ [d] [] _ h1 hX1
        rw [g1] at hB1
        injection hB1 with hB1
        subst hB1
        simp only [h1, hX1, List.headD_cons]
        refine ⟨by simpa using g2, fun i hi => ?_⟩
        have := g3 [i] [] (.cons hi .nil) .nil
        simpa using this

/-- **C99, operators.**  As the docstring says, the product represents the operator
`[X₁, ..., X_k] ↦ M[A₁ X₁, ..., A_k X_k]`: applying `mdot(M, A₁, ..., A_k)` to vectors `X` is applying
`M` to the vectors `sdot(A_l, X_l)`. -/
theorem C99_operator (M : NdArray K) (A X B : List (NdArray K)) (s e : List ℕ) (hne : A ≠ [])
    (hA : List.Forall₂ (fun (A : NdArray K) e => ∃ d, A.shape = [d, e]) A e)
    (hX : List.Forall₂ (fun (X : NdArray K) e => X.shape = [e]) X e)
    (hB : List.Forall₂ (fun (p : NdArray K × NdArray K) (B : NdArray K) => sdot p.1 p.2 = .ok B)
      (A.zip X) B)
    (hM : M.shape = s ++ firstDims A) (h26 : M.shape.length + A.length ≤ 26) :
    ∃ R U V, mdot M A = .ok R ∧ mdot R X = .ok U ∧ mdot M B = .ok V ∧ U.shape = s ∧ V.shape = s ∧
      ∀ lead, InBox lead s → U.get lead = V.get lead := by
  obtain ⟨a1, a2, a3⟩ := matrices_dims hA
  obtain ⟨x1, x2, x3⟩ := vectors_dims hX
  have hB' := products_dims hA hX hB
  obtain ⟨b1, b2, b3⟩ := vectors_dims (X := B)
    (e := (A.zip X).map fun p => p.1.shape.headD 0) (by
      rw [List.forall₂_map_right_iff]
      exact (hB'.imp fun _ _ h => h.1).flip)
  have hlen : A.length = e.length := hA.length_eq
  have hlenX : X.length = e.length := hX.length_eq
  have hlenB : B.length = A.length := by
    have := hB'.length_eq
    rw [← this, List.length_zip, hlen, hlenX, min_self]
  have hsum : ∀ n : ℕ, (List.map List.length (List.replicate n ([] : List ℕ))).sum = 0 := by
    intro n; simp
  have hsumA : ((restDims A).map List.length).sum = A.length := by
    rw [a2, hlen]
    simp [List.map_map, Function.comp_def]
  have hfl1 : (e.map fun x => [x]).flatten = e := by
    clear * -
    induction e with
    | nil => rfl
    | cons x e ih => simp [ih]
  have hfl0 : ∀ n : ℕ, (List.replicate n ([] : List ℕ)).flatten = [] := by intro n; simp
  obtain ⟨R, r1, r2, r3⟩ := C99_mdot M A s hne a1 hM (by rw [hsumA]; exact h26)
  rw [a2, hfl1] at r2
  have hXne : X ≠ [] := by
    intro h; rw [h] at hlenX; exact hne (List.length_eq_zero_iff.1 (by simp at hlenX; omega))
  have hBne : B ≠ [] := by
    intro h; rw [h] at hlenB; exact hne (List.length_eq_zero_iff.1 (by simp at hlenB; omega))
  have hMl : M.shape.length = s.length + A.length := by rw [hM]; simp [firstDims]
  obtain ⟨U, u1, u2, u3⟩ := C99_mdot R X s hXne x1 (by rw [r2, x3]) (by
    rw [x2, hsum, r2, List.length_append]; omega)
  have hfB : firstDims B = firstDims A := by
    rw [b3]
    simp only [firstDims]
    clear * - hlen hlenX
    induction A generalizing X e with
    | nil => rfl
    | cons a A ih =>
      cases X with
      | nil => cases e <;> simp_all
      | cons x X =>
        cases e with
        | nil => simp at hlen
        | cons y e => simp only [List.zip_cons_cons, List.map_cons]; rw [ih X e (by simpa using hlen) (by simpa using hlenX)]
  obtain ⟨V, v1, v2, v3⟩ := C99_mdot M B s hBne b1 (by rw [hfB, hM]) (by
    rw [b2, hsum]; omega)
  rw [x2, hfl0, List.append_nil] at u2
  rw [b2, hfl0, List.append_nil] at v2
  refine ⟨R, U, V, r1, u1, v1, u2, v2, ?_⟩
  intro lead hl
  have hJX : List.Forall₂ (fun J (c : NdArray K) => InBox J c.shape.tail) (List.replicate X.length []) X := by
    clear * - hX
    induction hX with
    | nil => exact .nil
    | cons h _ ih => exact .cons (by rw [h]; exact .nil) ih
  have hJB : List.Forall₂ (fun J (c : NdArray K) => InBox J c.shape.tail) (List.replicate B.length []) B := by
    generalize A.zip X = AX at hB'
    clear * - hB'
    induction hB' with
    | nil => exact .nil
    | cons h _ ih => exact .cons (by rw [h.1]; exact .nil) ih
  have eU := u3 lead _ hl hJX
  have eV := v3 lead _ hl hJB
  rw [hfl0, List.append_nil] at eU eV
  rw [eU, eV, contraction, contraction, x3, hfB]
  have hstep : ∀ j, InBox j e → R.get (lead ++ j) * prodC X j (List.replicate X.length [])
      = sumIdx (firstDims A) fun a => M.get (lead ++ a) *
          (prodC A a (j.map fun i => [i]) * prodC X j (j.map fun _ => [])) := by
    intro j hj
    have hfl : (j.map fun x => [x]).flatten = j := by
      clear * -
      induction j with
      | nil => rfl
      | cons x e ih => simp [ih]
    have hJA : List.Forall₂ (fun J (c : NdArray K) => InBox J c.shape.tail) (j.map fun i => [i]) A := by
      clear * - hA hj
      induction hA generalizing j with
      | nil => cases hj; exact .nil
      | cons h _ ih =>
        cases hj with
        | cons h1 h2 =>
          obtain ⟨d, h⟩ := h
          exact .cons (by rw [h]; exact .cons h1 .nil) (ih _ h2)
    have := r3 lead _ hl hJA
    rw [hfl] at this
    rw [this, contraction, mul_comm, ← sumIdx_mul]
    refine sumIdx_congr fun a _ => ?_
    rw [List.map_const', hj.length, hlenX]
    ring
  rw [sumIdx_congr hstep, sumIdx_comm]
  refine sumIdx_congr fun a ha => ?_
  rw [sumIdx_mul, prodC_operator A X B e a hA hX hB' ha, List.map_const', ha.length, hlenB]
  simp [firstDims]

/-- Non-vacuity: a `1 × 2 × 2` array, two matrices and two vectors. -/
example : ∃ (M R : NdArray ℚ) (A B : NdArray ℚ), M.shape = [1] ++ firstDims [A, B] ∧
    mdot M [A, B] = .ok R ∧ R.shape = [1, 3, 1] ∧ R.get [0, 2, 0] = 47 := by
  refine ⟨⟨[1, 2, 2], fun i => 1 + (i.getD 1 0 : ℕ) + (i.getD 2 0 : ℕ)⟩, _,
    ⟨[2, 3], fun i => 1 + (i.getD 0 0 : ℕ) * (i.getD 1 0 : ℕ)⟩, ⟨[2, 1], fun i => 2 + (i.getD 0 0 : ℕ)⟩,
    rfl, rfl, rfl, ?_⟩
  decide +kernel

/-- **C99** (`multidot_old`, more matrices than axes).  With two matrices and a vector the axis number is `-1`, which counts from
the end: nothing is raised, and the vector is multiplied by both matrices in turn. -/
theorem C99_multidot_extra (t m n : NdArray K) (d e f : ℕ) (ht : t.shape = [d]) (hm : m.shape = [d, e]) (hn : n.shape = [e, f]) :
    ∃ R, multidotOld t [m, n] = .ok R ∧ R.shape = [f] ∧
      ∀ k, R.get [k] = ∑ j ∈ Finset.range e, (∑ i ∈ Finset.range d, t.get [i] * m.get [i, j]) * n.get [j, k] := by
  have one : ∀ (t m : NdArray K) (d e : ℕ), t.shape = [d] → m.shape = [d, e] → ∃ R, tensordot0 t m (-1) = .ok R ∧
      R.shape = [e] ∧ ∀ j, R.get [j] = ∑ i ∈ Finset.range d, t.get [i] * m.get [i, j] := by
    intro t m d e ht hm
    refine ⟨⟨[e], fun idx => ∑ k ∈ Finset.range d, t.get [k] * m.get (k :: idx)⟩, ?_, rfl, fun j => rfl⟩
    simp [tensordot0, ht, hm]
  obtain ⟨R1, a1, a2, a3⟩ := one t m d e ht hm
  obtain ⟨R2, b1, b2, b3⟩ := one R1 n e f a2 hn
  refine ⟨R2, ?_, b2, fun k => ?_⟩
  · have e1 : (t.shape.length : ℤ) - ([m, n] : List (NdArray K)).length = -1 := by simp [ht]
    rw [multidotOld, e1]
    simp only [List.foldlM_cons, List.foldlM_nil, a1, bind, Except.bind, b1, pure, Except.pure]
  · rw [b3]
    simp only [a3]

/-- A vector, two matrices. -/
example : ∃ t m n : NdArray ℚ, t.shape = [2] ∧ m.shape = [2, 3] ∧ n.shape = [3, 1] :=
  ⟨⟨[2], fun _ => 1⟩, ⟨[2, 3], fun _ => 1⟩, ⟨[3, 1], fun _ => 1⟩, rfl, rfl, rfl⟩

end Dolo
