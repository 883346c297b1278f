import Mathlib.Data.Set.Function
import Mathlib.Logic.Equiv.List
import Mathlib.Data.Int.Basic
import Mathlib.Tactic.Common
import Verif.Props.Caching

/-!
# C50, C92 for plain arguments: integers, strings and tuples of them

Here the hypothesis is about Python's `hash` on strings, tuples and frozensets only, and no longer
about the calls: it says that *their* hashes do not collide.
-/

set_option linter.unusedSectionVars false

namespace Dolo

variable {R : Type}

mutual
/-- Integers other than `-1` taken from a set `S`, strings, and tuples of such values. -/
def Plain (S : ℤ → Prop) : PyVal → Prop
  | .int n => n ≠ -1 ∧ S n
  | .str _ => True
  | .tuple l => Plains S l
  | _ => False

/-- `Plain`, for all members. -/
def Plains (S : ℤ → Prop) : List PyVal → Prop
  | [] => True
  | v :: vs => Plain S v ∧ Plains S vs
end

/-- Hashes of strings, tuples and frozensets do not collide with each other nor with the integers
of `S`.  The hash of a frozenset of items tells the items, not their order. -/
structure CollisionFree (H : Hasher) (S : ℤ → Prop) : Prop where
  str_inj : ∀ s s', H.str s = H.str s' → s = s'
  tuple_inj : ∀ l l', H.tuple l = H.tuple l' → l = l'
  frozen_inj : ∀ ks l ks' l', H.frozen ks l = H.frozen ks' l' → (ks.zip l).Perm (ks'.zip l')
  str_tuple : ∀ s l, H.str s ≠ H.tuple l
  str_int : ∀ s n, S n → H.str s ≠ n
  tuple_int : ∀ l n, S n → H.tuple l ≠ n

/-- A call with plain arguments. -/
structure PlainCall (S : ℤ → Prop) (c : Call) : Prop where
  args : Plains S c.args
  kvals : Plains S c.kvals
  len : c.knames.length = c.kvals.length

/-- Two calls with the same positional arguments and the same keyword arguments, in any order. -/
def SameCall (c c' : Call) : Prop :=
  c.args = c'.args ∧ (c.knames.zip c.kvals).Perm (c'.knames.zip c'.kvals)

theorem plains_iff (S : ℤ → Prop) (l : List PyVal) : Plains S l ↔ ∀ v ∈ l, Plain S v := by
  induction l with
  | nil => simp [Plains]
  | cons v l ih => simp [Plains, ih]

mutual
/-- The hash of a plain value. -/
def plainHash (H : Hasher) : PyVal → ℤ
  | .int n => pyHashInt n
  | .str s => H.str s
  | .tuple l => H.tuple (plainHashes H l)
  | _ => 0

/-- `plainHash` of the members. -/
def plainHashes (H : Hasher) : List PyVal → List ℤ
  | [] => []
  | v :: vs => plainHash H v :: plainHashes H vs
end

theorem plainHashes_eq (H : Hasher) (l : List PyVal) : plainHashes H l = l.map (plainHash H) := by
  induction l with
  | nil => rfl
  | cons v l ih => simp [plainHashes, ih]

mutual
theorem hash_raw (H : Hasher) (S : ℤ → Prop) : ∀ v, Plain S v →
    pyHash H (rawVal v) = .ok (plainHash H v)
  | .int n, _ => rfl
  | .str s, _ => rfl
  | .tuple l, h => by
    simp only [rawVal, pyHash, plainHash, hash_raws H S l h]
    rfl
  | .arr _ _, h => h.elim
  | .list _, h => h.elim
  | .dict _ _, h => h.elim

theorem hash_raws (H : Hasher) (S : ℤ → Prop) : ∀ l, Plains S l →
    pyHashes H (rawVals l) = .ok (plainHashes H l)
  | [], _ => rfl
  | v :: vs, h => by
    simp only [rawVals, pyHashes, plainHashes, hash_raw H S v h.1, hash_raws H S vs h.2]
    rfl
end

theorem hashable_plain (S : ℤ → Prop) (v : PyVal) (h : Plain S v) : hashable v = rawVal v := by
  cases v <;> first | rfl | exact h.elim

theorem hashables_plain (S : ℤ → Prop) (l : List PyVal) (h : Plains S l) :
    hashables l = rawVals l := by
  induction l with
  | nil => rfl
  | cons v l ih => simp only [hashables, rawVals, hashable_plain S v h.1, ih h.2]

theorem callHash_plain (H : Hasher) (S : ℤ → Prop) (c : Call) (h : PlainCall S c) :
    callHash H c = .ok (H.tuple [H.tuple (c.args.map (plainHash H)),
      H.frozen c.knames (c.kvals.map (plainHash H))]) := by
  simp only [callHash, hashable, pyHash, pyHashes, hashables_plain S _ h.args,
    hashables_plain S _ h.kvals, hash_raws H S _ h.args, hash_raws H S _ h.kvals, plainHashes_eq]
  rfl

theorem pyHashInt_inj (m n : ℤ) (hm : m ≠ -1) (hn : n ≠ -1) (h : pyHashInt m = pyHashInt n) :
    m = n := by
  simpa [pyHashInt, hm, hn] using h

mutual
theorem plainHash_inj (H : Hasher) (S : ℤ → Prop) (hH : CollisionFree H S) :
    ∀ v w, Plain S v → Plain S w → plainHash H v = plainHash H w → v = w
  | .int m, .int n, hv, hw, h => by rw [pyHashInt_inj m n hv.1 hw.1 h]
  | .int m, .str s, hv, _, h => by
    exfalso
    simp only [plainHash, pyHashInt, if_neg hv.1] at h
    exact hH.str_int s m hv.2 h.symm
  | .int m, .tuple l, hv, _, h => by
    exfalso
    simp only [plainHash, pyHashInt, if_neg hv.1] at h
    exact hH.tuple_int _ m hv.2 h.symm
  | .str s, .int m, _, hw, h => by
    exfalso
    simp only [plainHash, pyHashInt, if_neg hw.1] at h
    exact hH.str_int s m hw.2 h
  | .str s, .str s', _, _, h => by rw [hH.str_inj s s' h]
  | .str s, .tuple l, _, _, h => absurd h (hH.str_tuple s _)
  | .tuple l, .int m, _, hw, h => by
    exfalso
    simp only [plainHash, pyHashInt, if_neg hw.1] at h
    exact hH.tuple_int _ m hw.2 h
  | .tuple l, .str s, _, _, h => absurd h.symm (hH.str_tuple s _)
  | .tuple l, .tuple l', hv, hw, h => by
    rw [plainHashes_inj H S hH l l' hv hw (hH.tuple_inj _ _ h)]
  | .arr _ _, _, hv, _, _ => hv.elim
  | .list _, _, hv, _, _ => hv.elim
  | .dict _ _, _, hv, _, _ => hv.elim
  | .int _, .arr _ _, _, hw, _ => hw.elim
  | .int _, .list _, _, hw, _ => hw.elim
  | .int _, .dict _ _, _, hw, _ => hw.elim
  | .str _, .arr _ _, _, hw, _ => hw.elim
  | .str _, .list _, _, hw, _ => hw.elim
  | .str _, .dict _ _, _, hw, _ => hw.elim
  | .tuple _, .arr _ _, _, hw, _ => hw.elim
  | .tuple _, .list _, _, hw, _ => hw.elim
  | .tuple _, .dict _ _, _, hw, _ => hw.elim

theorem plainHashes_inj (H : Hasher) (S : ℤ → Prop) (hH : CollisionFree H S) :
    ∀ l l', Plains S l → Plains S l' → plainHashes H l = plainHashes H l' → l = l'
  | [], [], _, _, _ => rfl
  | [], _ :: _, _, _, h => by simp [plainHashes] at h
  | _ :: _, [], _, _, h => by simp [plainHashes] at h
  | v :: vs, w :: ws, hv, hw, h => by
    simp only [plainHashes, List.cons.injEq] at h
    rw [plainHash_inj H S hH v w hv.1 hw.1 h.1, plainHashes_inj H S hH vs ws hv.2 hw.2 h.2]
end

/-- Plain calls with the same hash are the same call. -/
theorem sameCall_of_hash (H : Hasher) (S : ℤ → Prop) (hH : CollisionFree H S) (c c' : Call)
    (hc : PlainCall S c) (hc' : PlainCall S c') (h : callHash H c = callHash H c') :
    SameCall c c' := by
  rw [callHash_plain H S c hc, callHash_plain H S c' hc'] at h
  have h1 := hH.tuple_inj _ _ (Except.ok.inj h)
  simp only [List.cons.injEq, and_true] at h1
  refine ⟨?_, ?_⟩
  · have h2 := hH.tuple_inj _ _ h1.1
    rw [← plainHashes_eq, ← plainHashes_eq] at h2
    exact plainHashes_inj H S hH _ _ hc.args hc'.args h2
  · have h2 := hH.frozen_inj _ _ _ _ h1.2
    have : Nonempty PyVal := ⟨.int 0⟩
    have hinj : Set.InjOn (plainHash H) {v | Plain S v} := fun v hv w hw he =>
      plainHash_inj H S hH v w hv hw he
    have hback : ∀ (ks : List String) (vs : List PyVal), Plains S vs →
        (ks.zip (vs.map (plainHash H))).map
          (Prod.map id (Function.invFunOn (plainHash H) {v | Plain S v})) = ks.zip vs := by
      intro ks vs hvs
      rw [← List.zip_map]
      congr 1
      · simp
      · rw [List.map_map]
        conv_rhs => rw [← List.map_id vs]
        apply List.map_congr_left
        intro v hv
        exact hinj.leftInvOn_invFunOn ((plains_iff S vs).1 hvs v hv)
    have h3 := h2.map (Prod.map id (Function.invFunOn (plainHash H) {v | Plain S v}))
    rwa [hback _ _ hc.kvals, hback _ _ hc'.kvals] at h3

/-- **C50** (partial: plain arguments).  If hashes of strings, tuples and frozensets do not
collide, then after any history of calls with plain positional and keyword arguments a memoised
function that does not look at the order of its keywords returns what the function returns. -/
theorem C50_plain_arguments_partial (H : Hasher) (S : ℤ → Prop) (hH : CollisionFree H S)
    (func : Call → Except Err R) (hfunc : ∀ c c', SameCall c c' → func c = func c')
    (hist : List Call) (c : Call) (hhist : ∀ c' ∈ hist, PlainCall S c') (hc : PlainCall S c) :
    (memoCall H func (memoRun H func [] hist) c).1 = func c :=
  C50_returns_value_partial H func hist c _ (callHash_plain H S c hc) fun c' hc' h =>
    hfunc c' c (sameCall_of_hash H S hH c' c (hhist c' hc') hc
      (by rw [h, callHash_plain H S c hc]))

/-- Non-vacuity: a collision-free hasher for the negative integers. -/
noncomputable def encHasher : Hasher where
  str := fun s => 3 * (Encodable.encode (s.toList.map Char.toNat) : ℤ)
  tuple := fun l => 3 * (Encodable.encode l : ℤ) + 1
  frozen := fun ks l =>
    3 * (Encodable.encode ((ks.map fun s => s.toList.map Char.toNat).zip l) : ℤ) + 2

theorem str_code_inj : Function.Injective fun s : String => s.toList.map Char.toNat := by
  intro s s' h
  have h1 : Function.Injective Char.toNat := fun a b hab => by
    apply Char.ext
    exact UInt32.toNat_inj.1 hab
  exact String.toList_inj.1 (List.map_injective_iff.2 h1 h)

theorem encHasher_collisionFree : CollisionFree encHasher (fun n => n < 0) where
  str_inj := fun s s' h => by
    simp only [encHasher] at h
    have h1 : s.toList.map Char.toNat = s'.toList.map Char.toNat :=
      Encodable.encode_injective (by omega)
    exact str_code_inj h1
  tuple_inj := fun l l' h => by
    simp only [encHasher] at h
    exact Encodable.encode_injective (by omega)
  frozen_inj := fun ks l ks' l' h => by
    simp only [encHasher] at h
    have h1 : (ks.map fun s : String => s.toList.map Char.toNat).zip l =
        (ks'.map fun s : String => s.toList.map Char.toNat).zip l' :=
      Encodable.encode_injective (by omega)
    have h2 : ∀ (ks : List String) (l : List ℤ),
        (ks.map fun s : String => s.toList.map Char.toNat).zip l =
        (ks.zip l).map (Prod.map (fun s : String => s.toList.map Char.toNat) id) := by
      intro ks l
      rw [← List.zip_map, List.map_id]
    rw [h2, h2] at h1
    have := List.map_injective_iff.2 (str_code_inj.prodMap Function.injective_id) h1
    rw [this]
  str_tuple := fun s l h => by
    simp only [encHasher] at h
    omega
  str_int := fun s n hn h => by
    simp only [encHasher] at h
    omega
  tuple_int := fun l n hn h => by
    simp only [encHasher] at h
    omega

/-- Non-vacuity: two calls that differ in a keyword argument only get their own values. -/
example : PlainCall (fun n => n < 0) ⟨[.int (-5), .str "a"], ["k"], [.tuple [.int (-3)]]⟩ ∧
    PlainCall (fun n => n < 0) ⟨[.int (-5), .str "a"], ["k"], [.tuple [.int (-4)]]⟩ := by
  refine ⟨⟨?_, ?_, rfl⟩, ⟨?_, ?_, rfl⟩⟩ <;> simp [Plains, Plain]

end Dolo
