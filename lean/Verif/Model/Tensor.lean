import Mathlib.Algebra.BigOperators.Group.Finset.Basic
import Mathlib.Algebra.BigOperators.Group.List.Basic
import Mathlib.Algebra.Field.Defs
import Mathlib.Data.List.Basic
import Verif.Model.Err

/-!
# Tensor products, `dolo/numeric/tensor.py`

An array is its shape and a function of the list of indices; entries outside the shape are not read.
Arithmetic is exact.  `numpy.einsum` and `numpy.tensordot` are modelled after their documentation.

A subscript string is modelled as the lists of its character codes, one list per operand and one for
the output: the characters that `mdot_signature` writes have codes from 97 on, so that none of them is a
comma or part of the arrow, and `einsum` splits the string into the same lists.
-/

namespace Dolo

open Finset

variable {K : Type} [Field K]

/-- A numpy array. -/
structure NdArray (K : Type) where
  shape : List ℕ
  get : List ℕ → K

/-- `l[-k:]` in Python: the whole list for `k = 0`. -/
def lastSlice {α : Type} (l : List α) (k : ℕ) : List α := if k = 0 then l else l.drop (l.length - k)

/-- `l[:-k]` in Python: the empty list for `k = 0`. -/
def initSlice {α : Type} (l : List α) (k : ℕ) : List α := if k = 0 then [] else l.take (l.length - k)

/-- tensor.py 26-31: the loop over `C`, from number `i` and code `ic`; the last argument has the ranks of
the remaining arrays. -/
def cSyms (fC : List ℕ) : ℕ → ℕ → List ℕ → Except Err (List (List ℕ))
  | _, _, [] => .ok []
  | i, ic, r :: rs => do
    let a ← pyGet fC i
    let rest ← cSyms fC (i + 1) (ic + (r - 1)) rs
    pure ((a :: List.range' ic (r - 1)) :: rest)

/-- tensor.py 21-37 `mdot_signature`, from the rank of `M` and the ranks of the `C`. -/
def mdotSignature (rM : ℕ) (rC : List ℕ) : Except Err (List (List ℕ) × List ℕ) := do
  let M_syms := List.range' 97 rM
  let fC_syms := lastSlice M_syms rC.length
  let C_syms ← cSyms fC_syms 0 (97 + rM) rC
  pure (M_syms :: C_syms, initSlice M_syms rC.length ++ (C_syms.map List.tail).flatten)

/-- Is the code that of a letter? -/
def isLetter (c : ℕ) : Bool := (decide (65 ≤ c) && decide (c ≤ 90)) || (decide (97 ≤ c) && decide (c ≤ 122))

/-- The sizes of the dimensions labelled `l`. -/
def labelSizes (ops : List (List ℕ × NdArray K)) (l : ℕ) : List ℕ :=
  (ops.flatMap fun o => o.1.zip o.2.shape).filterMap fun p => if p.1 = l then some p.2 else none

/-- The size of the label: numpy broadcasts dimensions of size one. -/
def labelDim (ops : List (List ℕ × NdArray K)) (l : ℕ) : ℕ :=
  ((labelSizes ops l).find? fun d => d != 1).getD 1

/-- `env` with the value `i` for the label `l`. -/
def setLabel (env : ℕ → ℕ) (l i : ℕ) : ℕ → ℕ := fun m => if m = l then i else env m

/-- Sum of `f` over the values of the given labels, each with its size. -/
def sumLabels (f : (ℕ → ℕ) → K) : List (ℕ × ℕ) → (ℕ → ℕ) → K
  | [], env => f env
  | (l, d) :: t, env => ∑ i ∈ range d, sumLabels f t (setLabel env l i)

/-- Index of an operand with the given labels and shape. -/
def operandIndex (ls shape : List ℕ) (env : ℕ → ℕ) : List ℕ :=
  (ls.zip shape).map fun p => if p.2 = 1 then 0 else env p.1

/-- Values of the output labels at an output index. -/
def outEnv : List ℕ → List ℕ → ℕ → ℕ
  | l :: ls, i :: is => setLabel (outEnv ls is) l i
  | _, _ => fun _ => 0

/-- `numpy.einsum(subscripts, *operands)`: sums over the labels absent from the output, in the order of
the alphabet. -/
def einsum (sig : List (List ℕ) × List ℕ) (arrays : List (NdArray K)) : Except Err (NdArray K) :=
  if sig.1.length ≠ arrays.length then .error .valueError
  else
    let ops := sig.1.zip arrays
    let labels := sig.1.flatten
    if !(labels ++ sig.2).all isLetter then .error .valueError
    else if !ops.all (fun o => decide (o.1.length = o.2.shape.length)) then .error .valueError
    else if !(decide sig.2.Nodup && sig.2.all (fun l => decide (l ∈ labels))) then .error .valueError
    else if !labels.all (fun l => (labelSizes ops l).all fun d => d == 1 || d == labelDim ops l) then
      .error .valueError
    else
      let summed := (List.range 128).filter fun l => decide (l ∈ labels) && !decide (l ∈ sig.2)
      .ok ⟨sig.2.map (labelDim ops), fun idx =>
        sumLabels (fun env => (ops.map fun o => o.2.get (operandIndex o.1 o.2.shape env)).prod)
          (summed.map fun l => (l, labelDim ops l)) (outEnv sig.2 idx)⟩

/-- tensor.py 43-45 `mdot(M, *C)`. -/
def mdot (M : NdArray K) (C : List (NdArray K)) : Except Err (NdArray K) := do
  let sig ← mdotSignature M.shape.length (C.map fun c => c.shape.length)
  einsum sig (M :: C)

/-- `numpy.tensordot(a, b, axes=(ax, 0))`.  A negative axis counts from the end. -/
def tensordot0 (a b : NdArray K) (ax : ℤ) : Except Err (NdArray K) :=
  let ax' : ℤ := if ax < 0 then ax + a.shape.length else ax
  if ax' < 0 then .error .indexError
  else match a.shape[ax'.toNat]?, b.shape with
    | some d, d' :: tl =>
      if d = d' then
        let x := ax'.toNat
        .ok ⟨a.shape.eraseIdx x ++ tl, fun idx =>
          let ia := idx.take (a.shape.length - 1)
          let ib := idx.drop (a.shape.length - 1)
          ∑ k ∈ range d, a.get (ia.take x ++ k :: ia.drop x) * b.get (k :: ib)⟩
      else .error .valueError
    | _, _ => .error .indexError

/-- tensor.py 4-17 `multidot_old(ten, mats)`. -/
def multidotOld (ten : NdArray K) (mats : List (NdArray K)) : Except Err (NdArray K) :=
  mats.foldlM (fun resp m => tensordot0 resp m ((ten.shape.length : ℤ) - mats.length)) ten

/-- tensor.py 48-55 `sdot(U, V)`. -/
def sdot (U V : NdArray K) : Except Err (NdArray K) := tensordot0 U V ((U.shape.length : ℤ) - 1)

end Dolo
