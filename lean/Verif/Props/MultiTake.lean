import Mathlib.Data.List.Forall2
import Mathlib.Data.List.GetD
import Mathlib.Data.Rat.Defs
import Mathlib.Tactic.NormNum
import Verif.Model.MultiTake
import Verif.Props.Tensor
import Verif.Props.NumDiff

/-!
# C99: `multitake` selects along each of the given axes

Specification: with one list of positions for each of some distinct axes, the result has the length of
the list in each of these axes, and its entries are those of the array at the listed positions.
-/

set_option linter.unusedSectionVars false

namespace Dolo

variable {K : Type} [Field K]

/-- `e` is a position in an axis of size `d`, counted from the end if negative. -/
def ValidPos (d : ℕ) (e : ℤ) : Prop := -(d : ℤ) ≤ e ∧ e < d

theorem wrapIndex_spec (d : ℕ) (e : ℤ) (h : ValidPos d e) :
    (wrapIndex d e : ℤ) = if e < 0 then e + d else e := by
  obtain ⟨h1, h2⟩ := h
  unfold wrapIndex
  split <;> omega

/-- The selection along one axis. -/
theorem takeAxis_ofList (a : NdArray K) (l : List ℤ) (x : ℕ) (hx : x < a.shape.length)
    (hl : ∀ e ∈ l, ValidPos (a.shape.getD x 0) e) :
    ∃ R, takeAxis a (IdxArr.ofList l) (x : ℤ) = .ok R ∧ R.shape = a.shape.set x l.length ∧
      ∀ idx, x < idx.length →
        R.get idx = a.get (idx.set x (wrapIndex (a.shape.getD x 0) (l.getD (idx.getD x 0) 0))) := by
  have hn : normAxis (x : ℤ) a.shape.length = .ok x := by
    unfold normAxis
    rw [if_pos (by constructor <;> omega)]
    simp
  have hall : (indexProduct [l.length]).all (fun j =>
      decide (-((a.shape.getD x 0 : ℕ) : ℤ) ≤ (IdxArr.ofList l).get j) &&
        decide ((IdxArr.ofList l).get j < (a.shape.getD x 0 : ℕ))) = true := by
    rw [List.all_eq_true]
    intro j hj
    rw [mem_indexProduct] at hj
    obtain ⟨i, t, hi, ht, rfl⟩ : ∃ i t, i < l.length ∧ t = [] ∧ j = i :: t := by
      rcases hj with _ | ⟨h1, h2⟩
      cases h2
      exact ⟨_, [], h1, rfl, rfl⟩
    have := hl (l.getD i 0) (by
      rw [List.getD_eq_getElem _ _ hi]; exact List.getElem_mem hi)
    simpa [IdxArr.ofList, ValidPos] using this
  refine ⟨⟨a.shape.take x ++ [l.length] ++ a.shape.drop (x + 1), fun idx =>
    a.get (idx.take x ++ wrapIndex (a.shape.getD x 0) ((IdxArr.ofList l).get ((idx.drop x).take 1)) ::
      idx.drop (x + 1))⟩, ?_, ?_, ?_⟩
  · unfold takeAxis
    simp only [hn, bind, Except.bind]
    rw [if_pos (by simpa only [IdxArr.ofList] using hall)]
    rfl
  · simp [List.set_eq_take_append_cons_drop, hx]
  · intro idx hidx
    simp only [IdxArr.ofList]
    rw [List.set_eq_take_append_cons_drop, if_pos hidx]
    congr 4
    have : (List.take 1 (List.drop x idx)).getD 0 0 = idx.getD x 0 := by
      rw [List.getD_eq_getElem _ _ hidx, List.drop_eq_getElem_cons hidx]
      simp [hidx]
    rw [this]

theorem multitakeLoop_spec (pre : List ℤ) (sel : List (ℕ × List ℤ)) (a : NdArray K)
    (hnd : (sel.map Prod.fst).Nodup)
    (hin : ∀ p ∈ sel, p.1 < a.shape.length ∧ ∀ e ∈ p.2, ValidPos (a.shape.getD p.1 0) e) :
    ∃ R, multitakeLoop (pre ++ sel.map fun p => (p.1 : ℤ)) pre.length
        (sel.map fun p => IdxArr.ofList p.2) a = .ok R ∧
      R.shape.length = a.shape.length ∧
      (∀ p ∈ sel, R.shape.getD p.1 0 = p.2.length) ∧
      (∀ q, q ∉ sel.map Prod.fst → R.shape[q]? = a.shape[q]?) ∧
      ∀ idx, InBox idx R.shape → ∃ src : List ℕ, R.get idx = a.get src ∧ src.length = idx.length ∧
        (∀ p ∈ sel, src.getD p.1 0 =
          wrapIndex (a.shape.getD p.1 0) (p.2.getD (idx.getD p.1 0) 0)) ∧
        ∀ q, q ∉ sel.map Prod.fst → src[q]? = idx[q]? := by
  induction sel generalizing pre a with
  | nil => exact ⟨a, rfl, rfl, by simp, by simp, fun idx _ => ⟨idx, rfl, rfl, by simp, by simp⟩⟩
  | cons s sel ih =>
    obtain ⟨x, l⟩ := s
    simp only [List.map_cons, List.nodup_cons] at hnd
    obtain ⟨hx, hl⟩ := hin (x, l) (by simp)
    obtain ⟨A, h1, h2, h3⟩ := takeAxis_ofList a l x hx hl
    have hne : ∀ p ∈ sel, p.1 ≠ x := fun p hp h => hnd.1 (h ▸ List.mem_map_of_mem hp)
    have hsh : ∀ p ∈ sel, A.shape.getD p.1 0 = a.shape.getD p.1 0 := by
      intro p hp
      rw [h2]
      simp only [List.getD_eq_getElem?_getD]
      rw [List.getElem?_set_ne (Ne.symm (hne p hp))]
    obtain ⟨R, r1, r2, r3, r4, r5⟩ := ih (pre ++ [(x : ℤ)]) A hnd.2 (by
      intro p hp
      obtain ⟨g1, g2⟩ := hin p (by simp [hp])
      refine ⟨by rw [h2]; simpa using g1, ?_⟩
      rw [hsh p hp]
      exact g2)
    have hAl : A.shape.length = a.shape.length := by rw [h2]; simp
    refine ⟨R, ?_, r2.trans hAl, ?_, ?_, ?_⟩
    · simp only [List.map_cons, multitakeLoop]
      have hg : pyGet (pre ++ (x : ℤ) :: sel.map fun p => (p.1 : ℤ)) pre.length = .ok (x : ℤ) := by
        simp [pyGet]
      rw [hg]
      simp only [bind, Except.bind, h1]
      simpa using r1
    · intro p hp
      rcases List.mem_cons.1 hp with rfl | hp
      · have := r4 x hnd.1
        simp only [List.getD_eq_getElem?_getD, this, h2]
        simp [hx]
      · exact r3 p hp
    · intro q hq
      simp only [List.map_cons, List.mem_cons, not_or] at hq
      rw [r4 q hq.2, h2, List.getElem?_set_ne (Ne.symm hq.1)]
    · intro idx hidx
      obtain ⟨src, s1, s2, s3, s4⟩ := r5 idx hidx
      have hil : idx.length = a.shape.length := by rw [hidx.length_eq, r2, hAl]
      have hxs : x < src.length := by omega
      have hsx : src.getD x 0 = idx.getD x 0 := by
        simp only [List.getD_eq_getElem?_getD, s4 x hnd.1]
      refine ⟨src.set x (wrapIndex (a.shape.getD x 0) (l.getD (idx.getD x 0) 0)), ?_, by simpa using s2,
        ?_, ?_⟩
      · rw [s1, h3 src hxs, hsx]
      · intro p hp
        rcases List.mem_cons.1 hp with rfl | hp
        · simp [hxs]
        · have := s3 p hp
          rw [hsh p hp] at this
          rw [← this]
          simp only [List.getD_eq_getElem?_getD]
          rw [List.getElem?_set_ne (Ne.symm (hne p hp))]
      · intro q hq
        simp only [List.map_cons, List.mem_cons, not_or] at hq
        rw [List.getElem?_set_ne (Ne.symm hq.1), s4 q hq.2]

/-- **C99** (multitake).  With lists of valid positions for distinct axes, `multitake` returns the array
whose length in each of these axes is that of the list, and whose entries are taken from the listed
positions in these axes (counted from the end if negative) and the same position in the others. -/
theorem C99_multitake (a : NdArray K) (sel : List (ℕ × List ℤ)) (hnd : (sel.map Prod.fst).Nodup)
    (hin : ∀ p ∈ sel, p.1 < a.shape.length ∧ ∀ e ∈ p.2, ValidPos (a.shape.getD p.1 0) e) :
    ∃ R, multitake a (sel.map fun p => IdxArr.ofList p.2) (sel.map fun p => (p.1 : ℤ)) = .ok R ∧
      R.shape.length = a.shape.length ∧
      (∀ p ∈ sel, R.shape.getD p.1 0 = p.2.length) ∧
      (∀ q, q ∉ sel.map Prod.fst → R.shape[q]? = a.shape[q]?) ∧
      ∀ idx, InBox idx R.shape → ∃ src : List ℕ, R.get idx = a.get src ∧ InBox src a.shape ∧
        (∀ p ∈ sel, ∀ e, p.2[idx.getD p.1 0]? = some e →
          (src.getD p.1 0 : ℤ) = if e < 0 then e + (a.shape.getD p.1 0 : ℕ) else e) ∧
        ∀ q, q ∉ sel.map Prod.fst → src[q]? = idx[q]? := by
  obtain ⟨R, r1, r2, r3, r4, r5⟩ := multitakeLoop_spec [] sel a hnd hin
  refine ⟨R, r1, r2, r3, r4, ?_⟩
  intro idx hidx
  obtain ⟨src, s1, s2, s3, s4⟩ := r5 idx hidx
  have hil : idx.length = R.shape.length := hidx.length_eq
  have hval : ∀ p ∈ sel, ∀ e, p.2[idx.getD p.1 0]? = some e →
      (src.getD p.1 0 : ℤ) = if e < 0 then e + (a.shape.getD p.1 0 : ℕ) else e := by
    intro p hp e he
    rw [s3 p hp]
    have : p.2.getD (idx.getD p.1 0) 0 = e := by
      rw [List.getD_eq_getElem?_getD, he]; rfl
    rw [this]
    exact wrapIndex_spec _ _ ((hin p hp).2 e (List.mem_of_getElem? he))
  refine ⟨src, s1, ?_, hval, s4⟩
  have hbox := (List.forall₂_iff_get.1 hidx).2
  refine List.forall₂_iff_get.2 ⟨by omega, ?_⟩
  intro i h1 h2
  by_cases hi : i ∈ sel.map Prod.fst
  · obtain ⟨p, hp, rfl⟩ := List.mem_map.1 hi
    have hb := hbox p.1 (by omega) (by omega)
    have hlen := r3 p hp
    rw [List.getD_eq_getElem _ _ (by omega)] at hlen
    simp only [List.get_eq_getElem] at hb ⊢
    have hlt : idx.getD p.1 0 < p.2.length := by
      rw [List.getD_eq_getElem _ _ (by omega)]; omega
    have hv := hval p hp _ (List.getElem?_eq_getElem hlt)
    obtain ⟨v1, v2⟩ := (hin p hp).2 _ (List.getElem_mem hlt)
    rw [List.getD_eq_getElem _ _ h1] at hv
    rw [List.getD_eq_getElem _ _ h2] at hv v1 v2
    split at hv <;> omega
  · have hb := hbox i (by omega) (by omega)
    have e1 := s4 i hi
    have e2 := r4 i hi
    rw [List.getElem?_eq_getElem h1, List.getElem?_eq_getElem (by omega)] at e1
    rw [List.getElem?_eq_getElem (by omega), List.getElem?_eq_getElem h2] at e2
    simp only [Option.some.injEq] at e1 e2
    simp only [List.get_eq_getElem] at hb ⊢
    omega

/-- **C99, `multitake` with negative axes.**  An axis given as a negative number is counted from the last one. -/
theorem C99_multitake_negative (a : NdArray K) (ind : IdxArr) (x : ℕ) (hx : x < a.shape.length) :
    takeAxis a ind ((x : ℤ) - a.shape.length) = takeAxis a ind x := by
  have h1 : normAxis ((x : ℤ) - a.shape.length) a.shape.length = .ok x := by
    unfold normAxis
    rw [if_neg (by omega), if_pos (by omega)]
    simp
  have h2 : normAxis (x : ℤ) a.shape.length = .ok x := by
    unfold normAxis
    rw [if_pos (by omega)]
    simp
  unfold takeAxis
  rw [h1, h2]

/-- **C99** (multitake, axes outside).  An axis that the array does not have raises, whatever the positions (even none). -/
theorem C99_multitake_axis_raises (a : NdArray K) (ax : ℤ) (ind : IdxArr) (inds : List IdxArr) (axes : List ℤ)
    (hx : (a.shape.length : ℤ) ≤ ax ∨ ax < -(a.shape.length : ℤ)) :
    multitake a (ind :: inds) (ax :: axes) = .error .indexError := by
  have hn : normAxis ax a.shape.length = .error .indexError := by
    unfold normAxis
    rw [if_neg (by omega), if_neg (by omega)]
  unfold multitake multitakeLoop
  have hg : pyGet (ax :: axes) 0 = .ok ax := by simp [pyGet]
  rw [hg]
  simp only [takeAxis, hn, bind, Except.bind]

/-- **C99** (multitake, positions outside).  A list with a position outside its axis raises when it comes
first, whatever follows. -/
theorem C99_multitake_raises (a : NdArray K) (x : ℕ) (l : List ℤ) (inds : List IdxArr) (axes : List ℤ)
    (hx : x < a.shape.length) (e : ℤ) (he : e ∈ l) (hbad : ¬ ValidPos (a.shape.getD x 0) e) :
    multitake a (IdxArr.ofList l :: inds) ((x : ℤ) :: axes) = .error .indexError := by
  have hn : normAxis (x : ℤ) a.shape.length = .ok x := by
    unfold normAxis
    rw [if_pos (by constructor <;> omega)]
    simp
  have ht : takeAxis a (IdxArr.ofList l) (x : ℤ) = .error .indexError := by
    unfold takeAxis
    simp only [hn, bind, Except.bind]
    rw [if_neg]
    intro hall
    rw [List.all_eq_true] at hall
    obtain ⟨i, hi, rfl⟩ := List.getElem_of_mem he
    have := hall [i] ((mem_indexProduct _ _).2 (List.Forall₂.cons hi .nil))
    apply hbad
    simpa [IdxArr.ofList, ValidPos, hi] using this
  unfold multitake multitakeLoop
  have hg : pyGet ((x : ℤ) :: axes) 0 = .ok (x : ℤ) := by simp [pyGet]
  rw [hg]
  simp only [bind, Except.bind, ht]

/-- **C99** (multitake with scalars).  The selection by scalars drops each axis as it goes, so that a
later axis number no longer means an axis of the array: `multitake(a, [0, 0], [0, 1])` of a
`2 × 3 × 4` array has shape `(3,)` and reads `a[0, i, 0]`, where selecting position 0 in the axes 0 and 1
leaves the shape `(4,)` and reads `a[0, 0, i]`; for a `2 × 3` array it raises. -/
theorem C99_multitake_scalars_fails :
    (∃ (a R : NdArray ℚ), a.shape = [2, 3, 4] ∧
      multitake a [IdxArr.scalar 0, IdxArr.scalar 0] [0, 1] = .ok R ∧ R.shape = [3] ∧
      R.get [1] = a.get [0, 1, 0] ∧ R.get [1] ≠ a.get [0, 0, 1]) ∧
    ∃ a : NdArray ℚ, a.shape = [2, 3] ∧
      multitake a [IdxArr.scalar 0, IdxArr.scalar 0] [0, 1] = .error .indexError := by
  refine ⟨⟨⟨[2, 3, 4], fun i => (i.getD 1 0 : ℕ) + 10 * (i.getD 2 0 : ℕ)⟩, _, rfl, rfl, rfl, ?_, ?_⟩,
    ⟨[2, 3], fun _ => 0⟩, rfl, rfl⟩
  · decide +kernel
  · decide +kernel

/-- Non-vacuity: rows `1, 0, 1` and the last column of a `2 × 3` array. -/
example : ∃ (a R : NdArray ℚ), a.shape = [2, 3] ∧
    multitake a [IdxArr.ofList [1, 0, 1], IdxArr.ofList [-1]] [0, 1] = .ok R ∧ R.shape = [3, 1] ∧
    R.get [0, 0] = a.get [1, 2] ∧ R.get [1, 0] = a.get [0, 2] ∧ a.get [1, 2] ≠ a.get [0, 2] := by
  refine ⟨⟨[2, 3], fun i => (i.getD 0 0 : ℕ) + 10 * (i.getD 1 0 : ℕ)⟩, _, rfl, rfl, rfl, ?_, ?_, ?_⟩ <;>
    decide +kernel

/-- The hypotheses of `C99_multitake` for that selection. -/
example : (([(0, [1, 0, 1]), (1, [-1])] : List (ℕ × List ℤ)).map Prod.fst).Nodup ∧
    ∀ p ∈ ([(0, [1, 0, 1]), (1, [-1])] : List (ℕ × List ℤ)), p.1 < [2, 3].length ∧
      ∀ e ∈ p.2, ValidPos ([2, 3].getD p.1 0) e := by
  refine ⟨by decide, ?_⟩
  unfold ValidPos
  decide

/-- `C99_multitake_axis_raises` for an empty selection in a third axis of a matrix. -/
example : multitake (⟨[2, 3], fun _ => (0 : ℚ)⟩ : NdArray ℚ) [IdxArr.ofList []] [2] = .error .indexError :=
  C99_multitake_axis_raises _ _ _ _ _ (by simp)

end Dolo
