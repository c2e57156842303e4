import Verif.Model.SCM

/-!
# Drawing a causal model (`cmodel.py:271-290`)
-/

set_option linter.unusedSectionVars false

namespace Verif

/-- Colours and styles used by `draw`. -/
inductive Ink
  | black | lightgray | white | gray
  deriving DecidableEq, Repr

/-- A call of one of the drawing functions of networkx: nodes, labels (`none` is the empty text) and edges (`true` is dashed). -/
inductive DrawCall (V : Type)
  | nodes (l : List V) (c : Ink)
  | labels (l : List (V × Option V)) (c : Ink)
  | edges (l : List (V × V)) (c : Ink) (dashed : Bool)
  deriving DecidableEq, Repr

variable {V S α : Type} [DecidableEq V] [DecidableEq S]

/-- One call given the nodes that have a position (networkx 2.6.3 `draw_networkx_nodes` raises `NetworkXError` for a node without
position, `draw_networkx_labels` and `draw_networkx_edges` raise `KeyError`); nothing is looked up for empty lists -/
def DrawCall.run (pos : List V) (c : DrawCall V) : Py (DrawCall V) :=
  match c with
  | .nodes l _ => if ∀ v ∈ l, v ∈ pos then .ok c else .error .networkx
  | .labels l _ => if ∀ p ∈ l, p.1 ∈ pos then .ok c else .error .keyError
  | .edges l _ _ => if ∀ e ∈ l, e.1 ∈ pos ∧ e.2 ∈ pos then .ok c else .error .keyError

variable {I : StoreImpl V S α} {L : LabelStore V S}

/-- `cmodel.py:276-289`: the calls in order -/
def SCM.drawCalls (m : SCM I L) : List (DrawCall V) :=
  let g := m.base.graph
  [.nodes m.endogenous .black, .nodes m.exogenous .lightgray,
   .labels (g.nodes.map fun v => (v, if v ∈ m.endogenous then some v else none)) .white,
   .labels (g.nodes.map fun v => (v, if v ∉ m.endogenous then some v else none)) .black,
   .edges (g.edges.filter fun e => e.1 ∉ m.endogenous) .gray true,
   .edges (g.edges.filter fun e => e.1 ∈ m.endogenous) .black false]

/-- `cmodel.py:271-290` `draw`: what has been drawn. `pos` has the nodes to which the caller gives a position; no dictionary, or an
empty one, is replaced by a layout of all nodes (line 274). -/
def SCM.draw (m : SCM I L) (pos : Option (List V)) : Py (List (DrawCall V)) :=
  let p := match pos with
    | none => m.base.graph.nodes
    | some [] => m.base.graph.nodes
    | some l => l
  m.drawCalls.mapM (DrawCall.run p)

end Verif
