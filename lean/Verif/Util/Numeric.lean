import Verif.DomainUtils
import Verif.Util.Misc
import Verif.Py.Names

/-!
# Spaces of positions (`util/domainutils.py`) and the check of domains with their Python types (`factors/factor.py`)
-/

set_option linter.unusedSectionVars false
set_option linter.unusedSimpArgs false

namespace Verif

section
variable {V S : Type} [DecidableEq V] [DecidableEq S]

/-- `domainutils.py:35-36` `steps_dict` -/
def stepsDict (dom : Dom V S) : List (V × Nat) := (Dict.keys dom).zip (steps (cards dom))

/-- `domainutils.py:67-68` `numeric_state_space` -/
def numericStateSpace (dom : Dom V S) : List (List Nat) := stateSpace (toNumericDomains dom)

/-- `domainutils.py:70-71` `numeric_assignment_space` -/
def numericAssignmentSpace (dom : Dom V S) : List (Obs V Nat) := assignmentSpace (toNumericDomains dom)

end

/-- A domain as the caller may give it: any keys, and values that are lists (`some`) or something else -/
abbrev PyDomain (K : Type) := List (PyVal K × Option (List (PyVal K)))

/-- `v.startswith("_")` -/
def underscored {K : Type} : PyVal K → Bool
  | .str ('_' :: _) => true
  | _ => false

/-- `isinstance(v, str)` -/
def isStr {K : Type} : PyVal K → Bool
  | .str _ => true
  | _ => false

/-- `len(set([type(v) for v in d])) == 1` -/
def oneType {K : Type} (l : List (PyVal K)) : Bool := (l.map PyVal.type).dedup.length == 1

/-- `factor.py:73-81` `_check_domain` of a dictionary; something else is refused in the first test. -/
def checkPyDomain {K : Type} (d : PyDomain K) : Py Unit := do
  if ¬ (d.all fun p => isStr p.1) ∨ ¬ (d.all fun p => p.2.isSome) ∨ ¬ (d.all fun p => oneType (p.2.getD [])) then throw .valueError
  if d.any fun p => underscored p.1 then throw .valueError
  return ()

end Verif
