import Verif.Model.SymbolicModel
import Verif.Model.Factory

/-!
# Model of the functions of a model: `SymbolicModel.equations` (`dolo/compiler/model.py:43-128`),
`Model.__compile_functions__` (605-640), `Model.x_bounds` (783-794), and of the functions that the solution methods read
for the bounds of the controls.

The texts of the equations are those printed by the external package dolang; a compiled function is the result of `build`,
which stands for the part of `get_factory` that follows the choice of the recipe and for dolang's compiler.  (`get_factory`
itself is modelled in `Verif/Model/Factory.lean`.)
-/

namespace Dolo

variable {F : Type}

/-- `model.py:51-105`, one block of the section `equations`.  The conditions of the equations are looked at in the block
`arbitrage` only. -/
def equationsStep (controls : List String) (d : PyDict (List String)) (b : String × List ArbEq) :
    Except Err (PyDict (List String)) :=
  if b.1 = "arbitrage" then do
    let e ← arbitrageEquations controls b.2
    pure (updateDict d e)
  else pure (d.set b.1 (b.2.map (·.text)))

/-- `model.py:43-128` `SymbolicModel.equations`. -/
def modelEquations (controls : List String) (blocks : List (String × List ArbEq)) : Except Err (PyDict (List String)) :=
  blocks.foldlM (equationsStep controls) []

/-- `factories.py:52-81`: the texts and the recipe of a type of equations.  `auxiliaries` is
`model.symbols["auxiliaries"]`, which is missing in a model without a section `definitions`. -/
def factoryInput (auxiliaries : Option (List String)) (eqs : PyDict (List String)) (eqType : String) :
    Except Err (Spec × List String) := do
  let texts ← if eqType = "auxiliary" then
      match auxiliaries with
      | some l => .ok l
      | none => .error .keyError
    else eqs.get eqType
  match recipe eqType with
  | some spec => .ok (spec, texts)
  | none => .error .keyError

/-- `model.py:626-633`, one turn of the loop. -/
def compileStep (build : String → Spec → List String → Except Err F) (auxiliaries : Option (List String))
    (eqs : PyDict (List String)) (functions : LoosyDict F) (funname : String) : Except Err (LoosyDict F) := do
  let i ← factoryInput auxiliaries eqs funname
  let f ← build funname i.1 i.2
  pure (functions.setitem funname f)

/-- `model.py:605-640` `__compile_functions__`; `nDefs` is `len(self.definitions)`. -/
def compileFunctions (build : String → Spec → List String → Except Err F) (auxiliaries : Option (List String))
    (nDefs : ℕ) (eqs : PyDict (List String)) : Except Err (LoosyDict F) :=
  let funnames := eqs.map (·.1) ++ (if nDefs > 0 then ["auxiliary"] else [])
  funnames.foldlM (compileStep build auxiliaries eqs)
    ⟨[], [("equilibrium", "arbitrage"), ("optimality", "arbitrage")]⟩

/-- `model.functions`, `model.py:642-646`, of a model just built. -/
def modelFunctions (build : String → Spec → List String → Except Err F) (controls : List String)
    (auxiliaries : Option (List String)) (nDefs : ℕ) (blocks : List (String × List ArbEq)) :
    Except Err (LoosyDict F) := do
  let eqs ← modelEquations controls blocks
  compileFunctions build auxiliaries nDefs eqs

/-- Two functions read one after the other. -/
def readPair (functions : LoosyDict F) (lb ub : String) : Except Err (F × F) := do
  let l ← functions.getitem lb
  let u ← functions.getitem ub
  pure (l, u)

/-- `model.py:783-794` `x_bounds`, read by `perfect_foresight.py:207-209`. -/
def xBounds (functions : LoosyDict F) : Except Err (Option (F × F)) :=
  if functions.contains "controls_ub" then some <$> readPair functions "controls_lb" "controls_ub"
  else if functions.contains "arbitrage_ub" then some <$> readPair functions "arbitrage_lb" "arbitrage_ub"
  else .ok none

/-- The bounds read by `time_iteration`, `time_iteration.py:143-158`. -/
def tiBoundFunctions (withComplementarities : Bool) (functions : LoosyDict F) : Except Err (Option (F × F)) :=
  if functions.contains "arbitrage_lb" && withComplementarities then
    some <$> readPair functions "arbitrage_lb" "arbitrage_ub"
  else .ok none

/-- The bounds read by `improved_time_iteration`, `improved_time_iteration.py:297-298`, whatever its option
`with_complementarities`. -/
def itiBoundFunctions (functions : LoosyDict F) : Except Err (F × F) :=
  readPair functions "arbitrage_lb" "arbitrage_ub"

/-- The bounds read by `egm`, `egm.py:44-50`; `__original_gufunctions__` is a plain dict with the same names. -/
def egmBoundFunctions (functions : LoosyDict F) : Except Err (F × F) := do
  let l ← functions.store.get "arbitrage_lb"
  let u ← functions.store.get "arbitrage_ub"
  pure (l, u)

/-- The functions read by `value_iteration`, `value_iteration.py:51-54`. -/
def viFunctions (functions : LoosyDict F) : Except Err (F × F × F × F) := do
  let transition ← functions.getitem "transition"
  let felicity ← functions.getitem "felicity"
  let controls_lb ← functions.getitem "controls_lb"
  let controls_ub ← functions.getitem "controls_ub"
  pure (transition, felicity, controls_lb, controls_ub)

end Dolo
