import Verif.Graph.Basic

/-!
# Elimination orders (`inference/ordering.py`)

`nx.Graph` is the list of its nodes and the list of its adjacent pairs, each edge in both
directions (like the nested dictionaries of networkx).  The order in which neighbours are listed
has no influence on the costs.  numpy's `choice` among the candidates is a free sequence of numbers.
-/

set_option linter.unusedSectionVars false
set_option linter.unusedSimpArgs false

namespace Verif

/-- `nx.Graph` -/
structure UGraph (V : Type) where
  nodes : List V
  arcs : List (V × V)
  deriving DecidableEq, Repr

namespace UGraph
variable {V : Type} [DecidableEq V]

def insertArc (h : UGraph V) (e : V × V) : UGraph V := if e ∈ h.arcs then h else ⟨h.nodes, h.arcs ++ [e]⟩

/-- `h.add_edge(x, y)` for nodes of the graph -/
def addEdge (h : UGraph V) (e : V × V) : UGraph V := (h.insertArc e).insertArc e.swap

def addEdges (h : UGraph V) (es : List (V × V)) : UGraph V := es.foldl addEdge h

/-- `list(h[v])`, for a node of the graph -/
def adj (h : UGraph V) (v : V) : List V := (h.arcs.filter fun e => e.1 = v).map Prod.snd

/-- `h.remove_node(v)` -/
def removeNode (h : UGraph V) (v : V) : UGraph V :=
  ⟨h.nodes.filter (· ≠ v), h.arcs.filter fun e => e.1 ≠ v ∧ e.2 ≠ v⟩

end UGraph

/-- `itertools.combinations(l, r=2)` -/
def combos2 {V : Type} : List V → List (V × V)
  | [] => []
  | x :: l => (l.map fun y => (x, y)) ++ combos2 l

namespace Ordering

variable {V : Type} [DecidableEq V]

/-- `nx.moral_graph` (networkx 2.6.3 `algorithms/moral.py`) -/
def moral (g : DiGraph V) : UGraph V :=
  let h : UGraph V := (⟨g.nodes, []⟩ : UGraph V).addEdges g.edges
  g.nodes.foldl (fun h v => h.addEdges (combos2 (g.pred v))) h

/-- `ordering.py:16-17` `fillin_arcs` -/
def fillinArcs (h : UGraph V) (v : V) : List (V × V) :=
  (combos2 (h.adj v)).filter fun p => p.2 ∉ h.adj p.1

/-- `ordering.py:10-13` `Heuristic` -/
inductive Kind
  | minFill
  | minSize
  | minWeight
  deriving DecidableEq, Repr

/-- `ordering.py:21-25` `cost_functions`; `KeyError` when the node is not in the graph -/
def cost (sizes : List (V × Nat)) (k : Kind) (h : UGraph V) (v : V) : Py Nat :=
  if v ∉ h.nodes then .error .keyError else
  match k with
  | .minSize => .ok (h.adj v).length
  | .minWeight => do
    let ss ← (h.adj v ++ [v]).mapM fun u => Dict.get sizes u
    return ss.prod
  | .minFill => .ok (fillinArcs h v).length

/-- `ordering.py:42-58` the loop; `rnd` gives the position that `choice` returns at each step -/
def loop (sizes : List (V × Nat)) (k : Kind) (rnd : Nat → Nat) : Nat → UGraph V → List V → Py (List V)
  | 0, _, _ => .ok []
  | n + 1, h, rm =>
    if rm = [] then .ok [] else do
    let costs ← rm.mapM (cost sizes k h)
    let least := costs.foldl min (costs.headD 0)
    let cands := ((rm.zip costs).filter fun p => p.2 = least).map Prod.fst
    match cands[rnd n % cands.length]? with
    | none => .error .indexError
    | some v => do
      let rest ← loop sizes k rnd n ((h.addEdges (fillinArcs h v)).removeNode v) (rm.erase v)
      return v :: rest

/-- `ordering.py:28-58` `_get_elim_ordering` with the three heuristics; only `min_weight` looks at the sizes -/
def elimOrdering (k : Kind) (rnd : Nat → Nat) (g : DiGraph V) (rm : List V) (sizes : List (V × Nat)) : Py (List V) := do
  if k = .minWeight then
    let _ ← g.nodes.mapM fun v => Dict.get sizes v
  loop sizes k rnd rm.length (moral g) rm

end Ordering
end Verif
