import Verif.Model.Basic

/-!
# `submodel`: `models/pgmodel.py:180-183`
-/

set_option linter.unusedSectionVars false
set_option linter.unusedSimpArgs false

namespace Verif
namespace DagModel

variable {V S F : Type} [DecidableEq V] [DecidableEq S] [FactorLike F V S]

/-- `bnet.py:21-22` `builder(self, **kwargs)` called with `positional` of its two arguments by position: such a call is a
`TypeError`, because the method has no parameters for them (`cmodel.py:158-161` has the same signature). -/
def builder (positional : Nat) (g : DiGraph V) (fs : List (V × Option F)) : Py (DagModel F V S) :=
  if positional = 0 then ofDict g fs true else .error .typeError

/-- `pgmodel.py:182` -/
def factorsOf (m : DagModel F V S) (nodes : List V) : List (V × Option F) := m.factors.filter fun p => p.1 ∈ nodes

/-- `pgmodel.py:180-183` `submodel` of a network; both arguments are given by position (line 183). -/
def submodel (m : DagModel F V S) (nodes : List V) : Py (DagModel F V S) :=
  builder 2 (m.graph.subgraph nodes) (m.factorsOf nodes)

end DagModel
end Verif
