/-!
# Exceptions as values

Python exceptions that the modelled functions can raise.  The model never totalises a failing
operation: functions that can raise return `Except Err α`.
-/

namespace Dolo

/-- The Python exception classes met in the modelled code. -/
inductive Err where
  | indexError
  | keyError
  | nameError
  | typeError
  | attributeError
  | valueError
  | assertionError
  | linAlgError
  | zeroDivision
  | eofError
  | dispatchError
  /-- `raise Exception("...")` -/
  | exception (msg : String)
  deriving DecidableEq, Repr

/-- `l[i]` on a Python list or 1-d array with a non-negative index. -/
def pyGet {α : Type _} (l : List α) (i : Nat) : Except Err α :=
  match l[i]? with
  | some x => .ok x
  | none => .error .indexError

end Dolo
