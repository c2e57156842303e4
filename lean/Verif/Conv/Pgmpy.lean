import Verif.IO.UaiNet
import Verif.IO.UaiRead

/-!
# Conversion to and from pgmpy: `conversion/pgmpy.py`

pgmpy is not part of the project.  Its `TabularCPD` is modelled as far as the conversion sees it: the
constructor refuses a table of another shape than (states of the variable, configurations of the
evidence), keeps the cells with one axis per variable in the order (variable, evidence …), and
`get_value` looks one up by the names of the states.  `TabularArgs` are the arguments handed to the
constructor, so what is said about them does not depend on that.
-/

set_option linter.unusedSectionVars false
set_option linter.unusedSimpArgs false

namespace Verif

variable {V S S' α : Type} [DecidableEq V] [DecidableEq S]

/-- `a.T` -/
def NdArray.transpose [Inhabited α] (a : NdArray α) : NdArray α :=
  .build a.shape.reverse fun idx => a.get idx.reverse

/-- `a.reshape(r, c)` -/
def NdArray.reshape2 (a : NdArray α) (r c : Nat) : Py (NdArray α) :=
  if r * c = a.flat.length then .ok ⟨[r, c], a.flat⟩ else .error .valueError

namespace Pgmpy

/-- The arguments of `pfd.TabularCPD` -/
structure TabularArgs (V S α : Type) where
  variable_ : V
  variableCard : Nat
  values : NdArray α
  stateNames : Dom V S
  evidence : List V
  evidenceCard : List Nat
  deriving DecidableEq

variable [Inhabited α] {I : StoreImpl V S α}

/-- `pgmpy.py:29-34`: the table as a matrix, before it is transposed -/
def matrix (values : NdArray α) : Py (NdArray α) :=
  let values := if values.shape.length < 2 then ⟨1 :: values.shape, values.flat⟩ else values
  if values.shape.length > 2 then
    values.reshape2 values.shape.dropLast.prod (values.shape.headD 0)
  else .ok values

/-- `pgmpy.py:25-48` `toTabularCPT` up to the call of the constructor -/
def toTabularArgs (f : Factor I) : Py (TabularArgs V S α) := do
  let v ← match Dict.keys f.leftDomain with
    | [] => .error .indexError
    | v :: _ => .ok v
  let card := f.dom.map fun p => (p.1, p.2.length)
  let values ← f.valuesArray []
  let values ← matrix values
  let vc ← Dict.get card v
  let ec ← f.rightVars.mapM fun p => Dict.get card p
  return ⟨v, vc, values.transpose, f.dom, f.rightVars, ec⟩

/-- A `TabularCPD` object of pgmpy -/
structure TabularCPD (V S α : Type) where
  variable_ : V
  variables_ : List V
  stateNames : Dom V S
  values : NdArray α

/-- The constructor of pgmpy -/
def TabularCPD.ofArgs (a : TabularArgs V S α) : Py (TabularCPD V S α) :=
  if a.values.shape = [a.variableCard, a.evidenceCard.prod] then
    .ok ⟨a.variable_, a.variable_ :: a.evidence, a.stateNames, ⟨a.variableCard :: a.evidenceCard, a.values.flat⟩⟩
  else .error .valueError

/-- `get_value(**s)` of pgmpy -/
def TabularCPD.getValue (c : TabularCPD V S α) (s : Obs V S) : Py α := do
  let idx ← c.variables_.mapM fun v => do
    let st ← Dict.get c.stateNames v
    let x ← Dict.get s v
    if x ∈ st then return st.idxOf x else .error .keyError
  return c.values.get idx

/-- `pgmpy.py:25-48` `toTabularCPT` -/
def toTabularCPT (f : Factor I) : Py (TabularCPD V S α) := do
  let a ← toTabularArgs f
  TabularCPD.ofArgs a

/-- `pgmpy.py:17-23` `toMultinomialFactor` (the reshape is to the shape of the domain) -/
def toMultinomialFactor (I : StoreImpl V S α) (c : TabularCPD V S α) : Py (Factor I) := do
  let data ← (assignmentSpace c.stateNames).mapM c.getValue
  Factor.make I c.stateNames data none (some (c.variables_.filter fun v => v ≠ c.variable_))

/-- A network of pgmpy: its nodes, `in_edges` and its tables -/
structure PgmpyNet (V S α : Type) where
  nodes : List V
  edges : List (V × V)
  cpds : List (TabularCPD V S α)

/-- `pgmpy.py:51-56` `toBCauseBNet`: the graph is made from the arcs -/
def toBCauseBNet (I : StoreImpl V S α) (n : PgmpyNet V S α) : Py (DagModel (Factor I) V S) := do
  let fs ← n.cpds.mapM fun c => do
    let f ← toMultinomialFactor I c
    return (c.variable_, some f)
  DagModel.ofDict (.ofEdges n.edges) fs true

/-- `pgmpy.py:61` for one entry of the dictionary of factors -/
def exportOne (p : V × Option (Factor I)) : Py (TabularCPD V S α) :=
  match p.2 with
  | none => .error .attributeError
  | some f => toTabularCPT f

/-- `pgmpy.py:59-62` `toPgmpyBNet`; the checks of `add_cpds` are left out. `in_edges` goes through the nodes and their
predecessors. -/
def toPgmpyBNet (m : DagModel (Factor I) V S) : Py (PgmpyNet V S α) := do
  let cs ← m.factors.mapM exportOne
  return ⟨m.graph.nodes, m.graph.nodes.flatMap fun v => (m.graph.pred v).map fun p => (p, v), cs⟩

end Pgmpy
end Verif
