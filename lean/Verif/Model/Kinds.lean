import Verif.Model.SCM
import Verif.Model.Components

/-!
# Exogenous parents, children and components of a causal model

The counterparts of `get_edogenous_parents`, `get_edogenous_children` (`Verif/Learn/Gradient.lean`) and of the endogenous components
(`Verif/Model/Components.lean`).
-/

set_option linter.unusedSectionVars false
set_option linter.unusedSimpArgs false

namespace Verif

variable {V S α : Type} [DecidableEq V] [DecidableEq S] [Inhabited α] {I : StoreImpl V S α} {L : LabelStore V S}

/-- `info.py:20-21` `get_exo_ccomponent` -/
def DiGraph.getExoCComponent (g : DiGraph V) (endo : List V) (v : V) : Py (List V) := do
  let c ← g.getCComponent endo v
  return c.filter fun w => w ∈ g.nodes ∧ w ∉ endo

namespace SCM

/-- `cmodel.py:57-58` `get_exogenous_parents`; `is_exogenous` (`cmodel.py:50-51`) also accepts names outside the graph -/
def exoParents (m : SCM I L) (v : V) : Py (List V) := do
  let l ← m.base.getParents [v]
  return l.filter (· ∉ m.endogenous)

/-- `cmodel.py:59-60` `get_exogenous_children` -/
def exoChildren (m : SCM I L) (v : V) : Py (List V) := do
  let l ← m.base.getChildren [v]
  return l.filter (· ∉ m.endogenous)

end SCM
end Verif
