import Verif.Model.NumDiff
import Verif.Model.Tensor

/-!
# `multitake`, `dolo/numeric/tensor.py` 58-63

`numpy.ndarray.take(indices, axis)` is modelled after its documentation, with the default mode
`"raise"`: negative indices count from the end, others outside the axis raise.
-/

namespace Dolo

variable {K : Type} [Field K]

/-- An array of integers; a scalar has the empty shape. -/
structure IdxArr where
  shape : List ℕ
  get : List ℕ → ℤ

/-- The one-dimensional array of a list. -/
def IdxArr.ofList (l : List ℤ) : IdxArr := ⟨[l.length], fun j => l.getD (j.getD 0 0) 0⟩

/-- A scalar index. -/
def IdxArr.scalar (i : ℤ) : IdxArr := ⟨[], fun _ => i⟩

/-- The axis number, `AxisError` (an `IndexError`) if there is none. -/
def normAxis (ax : ℤ) (ndim : ℕ) : Except Err ℕ :=
  if 0 ≤ ax ∧ ax < ndim then .ok ax.toNat
  else if ax < 0 ∧ -(ndim : ℤ) ≤ ax then .ok (ax + ndim).toNat
  else .error .indexError

/-- An index into an axis of size `d`. -/
def wrapIndex (d : ℕ) (e : ℤ) : ℕ := if e < 0 then (e + d).toNat else e.toNat

/-- `a.take(ind, ax)`: the axis is replaced by the shape of `ind`. -/
def takeAxis (a : NdArray K) (ind : IdxArr) (ax : ℤ) : Except Err (NdArray K) :=
  (normAxis ax a.shape.length) >>= fun x =>
    let d := a.shape.getD x 0
    let r := ind.shape.length
    if (indexProduct ind.shape).all (fun j => decide (-(d : ℤ) ≤ ind.get j) && decide (ind.get j < d)) then
      .ok ⟨a.shape.take x ++ ind.shape ++ a.shape.drop (x + 1), fun idx =>
        a.get (idx.take x ++ wrapIndex d (ind.get ((idx.drop x).take r)) :: idx.drop (x + r))⟩
    else .error .indexError

/-- tensor.py 60-62: the loop, from number `n`. -/
def multitakeLoop (axes : List ℤ) : ℕ → List IdxArr → NdArray K → Except Err (NdArray K)
  | _, [], resp => .ok resp
  | n, ind :: inds, resp =>
    (pyGet axes n) >>= fun axe => (takeAxis resp ind axe) >>= fun resp' =>
      multitakeLoop axes (n + 1) inds resp'

/-- tensor.py 58-63 `multitake(a, inds, axes)`. -/
def multitake (a : NdArray K) (inds : List IdxArr) (axes : List ℤ) : Except Err (NdArray K) :=
  multitakeLoop axes 0 inds a

end Dolo
