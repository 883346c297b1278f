import Verif.Model.Multimethod

/-!
# Declaring and calling functions with several methods

`dolo/misc/multimethod.py`: `get_types`, the decorator and `__call__`.  Simplified as in `Verif.Model.Multimethod`: hints are
classes, all defined when the function is declared.
-/

namespace Dolo

variable {Cls F : Type}

/-- `annotations.pop(name, object)` on the remaining annotations. -/
def popAnnotation (obj : Cls) (ann : List (String × Cls)) (name : String) : Cls × List (String × Cls) :=
  ((ann.lookup name).getD obj, ann.filter fun a => a.1 != name)

/-- The generator of `get_types`, `dolo/misc/multimethod.py:46`: `annotations.pop(name, object) for name in params if
annotations`.  The condition is evaluated for each parameter, when those before it have been removed. -/
def getTypesLoop (obj : Cls) : List (String × Cls) → List String → List Cls
  | _, [] => []
  | ann, name :: params =>
    if ann.isEmpty then getTypesLoop obj ann params
    else
      let (c, ann') := popAnnotation obj ann name
      c :: getTypesLoop obj ann' params

/-- `get_types(func)`, `dolo/misc/multimethod.py:39-46`, for a function with parameters `params` and the given annotations,
among which there may be one for `return`. -/
def getTypes (obj : Cls) (params : List String) (annotations : List (String × Cls)) : List Cls :=
  getTypesLoop obj (annotations.filter fun a => a.1 != "return") params

/-- `@multimethod` on a function declared with annotations, lines 136-140 (`self[get_types(func)] = func`). -/
def Multi.declare [DecidableEq Cls] [DecidableEq F] (W : Classes Cls) (m : Multi Cls F) (params : List String)
    (annotations : List (String × Cls)) (func : F) : Multi Cls F :=
  m.setitem W (getTypes W.object params annotations) func

/-- `__call__(*args, **kwargs)`, lines 199-201: the method is chosen from the positional arguments alone; `apply` is the
call of the function chosen. -/
def Multi.call [DecidableEq Cls] [DecidableEq F] {V R : Type} (W : Classes Cls) (typeOf : V → Cls)
    (apply : F → List V → List (String × V) → Except Err R) (m : Multi Cls F) (args : List V) (kwargs : List (String × V)) :
    Except Err R :=
  match (m.select W (args.map typeOf)).1 with
  | .ok f => apply f args kwargs
  | .error e => .error e

end Dolo
