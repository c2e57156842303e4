import Verif.Py.Basic
import Mathlib.Logic.Relation
import Mathlib.Data.List.Perm.Subperm
import Mathlib.Data.List.Dedup

/-!
# Directed graphs (`networkx.DiGraph`) and `util/graphutils.py`

A graph is the list of its nodes and the list of its edges, without repetitions
(`add_node`/`add_edge` of something present changes nothing).  networkx iterates over nodes and
edges in insertion order; the order in which views and copies list them is not part of any
theorem.  Sets returned by the code are lists here, and theorems only speak of membership.
-/

set_option linter.unusedSectionVars false
set_option linter.unusedSimpArgs false

namespace Verif

/-- `nx.DiGraph` -/
structure DiGraph (V : Type) where
  nodes : List V
  edges : List (V × V)
  deriving DecidableEq, Repr

namespace DiGraph

variable {V : Type} [DecidableEq V]

/-- What networkx guarantees about any graph object. -/
structure WF (g : DiGraph V) : Prop where
  nodes : g.nodes.Nodup
  edges : g.edges.Nodup
  ends : ∀ e ∈ g.edges, e.1 ∈ g.nodes ∧ e.2 ∈ g.nodes

/-- `nx.DiGraph()` -/
def empty : DiGraph V := ⟨[], []⟩

/-- `g.add_node(v)` -/
def addNode (g : DiGraph V) (v : V) : DiGraph V :=
  if v ∈ g.nodes then g else ⟨g.nodes ++ [v], g.edges⟩

/-- `g.add_edge(x, y)`, which adds missing end points -/
def addEdge (g : DiGraph V) (x y : V) : DiGraph V :=
  let g := (g.addNode x).addNode y
  if (x, y) ∈ g.edges then g else ⟨g.nodes, g.edges ++ [(x, y)]⟩

/-- `nx.DiGraph(arcs)` -/
def ofEdges (es : List (V × V)) : DiGraph V := es.foldl (fun g e => g.addEdge e.1 e.2) empty

/-- `g.predecessors(v)`; `NetworkXError` when `v` is not in the graph -/
def pred (g : DiGraph V) (v : V) : List V := (g.edges.filter fun e => e.2 = v).map Prod.fst
def predecessors (g : DiGraph V) (v : V) : Py (List V) :=
  if v ∈ g.nodes then .ok (g.pred v) else .error .networkx

/-- `g.successors(v)` -/
def succ (g : DiGraph V) (v : V) : List V := (g.edges.filter fun e => e.1 = v).map Prod.snd
def successors (g : DiGraph V) (v : V) : Py (List V) :=
  if v ∈ g.nodes then .ok (g.succ v) else .error .networkx

/-- `g.subgraph(nodes)` -/
def subgraph (g : DiGraph V) (vs : List V) : DiGraph V :=
  ⟨g.nodes.filter (· ∈ vs), g.edges.filter fun e => e.1 ∈ vs ∧ e.2 ∈ vs⟩

/-- `graphutils.py:84-87` `remove_nodes` (a copy; unknown nodes are ignored) -/
def removeNodes (g : DiGraph V) (vs : List V) : DiGraph V :=
  ⟨g.nodes.filter (· ∉ vs), g.edges.filter fun e => e.1 ∉ vs ∧ e.2 ∉ vs⟩

/-- `graphutils.py:70-74` `remove_outgoing_edges` -/
def removeOutgoing (g : DiGraph V) (vs : List V) : DiGraph V :=
  ⟨g.nodes, g.edges.filter fun e => e.1 ∉ vs⟩

/-- `graphutils.py:77-81` `remove_ingoing_edges` -/
def removeIngoing (g : DiGraph V) (vs : List V) : DiGraph V :=
  ⟨g.nodes, g.edges.filter fun e => e.2 ∉ vs⟩

/-- Saturation: the nodes reachable from `xs` by `next` (what breadth-first searches of networkx
compute), with fuel. -/
def closure (next : V → List V) : Nat → List V → List V
  | 0, xs => xs
  | n + 1, xs =>
    let new := (xs.flatMap next).filter (· ∉ xs)
    if new = [] then xs else closure next n (xs ++ new.dedup)

/-- `nx.descendants(g, v)` together with `v` -/
def reach (g : DiGraph V) (v : V) : List V := closure g.succ g.nodes.length [v]

/-- Neighbours in `g.to_undirected()` -/
def nbrs (g : DiGraph V) (v : V) : List V := g.succ v ++ g.pred v

/-- Connected component of `v` in `g.to_undirected()` -/
def component (g : DiGraph V) (v : V) : List V := closure g.nbrs g.nodes.length [v]

/-- `len(list(nx.simple_cycles(g))) > 0`: some node has a successor from which it is reachable. -/
def hasCycle (g : DiGraph V) : Bool := g.edges.any fun e => e.1 ∈ g.reach e.2

/-- `graphutils.py:34-46` loop of `_barren_info`; `g` is the current graph. -/
def barrenLoop (S : List V) : Nat → DiGraph V → List V → DiGraph V × List V
  | 0, g, barren => (g, barren)
  | n + 1, g, barren =>
    let new := g.nodes.filter fun x => (g.succ x).length = 0 ∧ x ∉ S
    if new.length > 0 then
      let barren := barren ++ new
      barrenLoop S n (g.subgraph (g.nodes.filter (· ∉ barren))) barren
    else (g, barren)

/-- `graphutils.py:34-46` `_barren_info` -/
def barrenInfo (g : DiGraph V) (S : List V) : DiGraph V × List V :=
  barrenLoop S (g.nodes.length + 1) g []

/-- `graphutils.py:49-50` -/
def barrenRemoval (g : DiGraph V) (S : List V) : DiGraph V := (g.barrenInfo S).1
/-- `graphutils.py:53-54` -/
def barrenNodes (g : DiGraph V) (S : List V) : List V := (g.barrenInfo S).2

/-- `graphutils.py:94-97` `connected`; `nx.node_connectivity(G, t, y) > 0` for distinct nodes says
that a path joins them. -/
def connected (g : DiGraph V) (target : List V) (y : V) : Bool :=
  y ∈ target || target.any fun t => y ∈ g.component t

/-- `graphutils.py:99-100` `disconnected_nodes` -/
def disconnectedNodes (g : DiGraph V) (target : List V) : List V :=
  g.nodes.filter fun x => !g.connected target x

/-- `nx.d_separated(g, x, y, z)` of networkx 2.6.3 (`algorithms/d_separation.py`): drop leaves
outside `x ∪ y ∪ z` repeatedly, drop the edges out of `z`, then join the weak components with one
another along `x` and along `y`, and see whether `x` and `y` ended up together.  `x` and `y` are not
empty in bcause.  The loop that drops leaves is the one of `_barren_info`. -/
def dSeparated (g : DiGraph V) (x y z : List V) : Bool :=
  let h := (g.barrenRemoval (x ++ y ++ z)).removeOutgoing z
  !(x.any fun a => y.any fun b => b ∈ h.component a)

/-- `graphutils.py:57-64` `dsep_nodes` -/
def dsepNodes (g : DiGraph V) (target evidence : List V) : List V :=
  g.nodes.filter fun v => g.dSeparated target [v] (evidence.filter (· ≠ v))

/-- `graphutils.py:66-67` `dcon_nodes` for a single target -/
def dconNodes (g : DiGraph V) (target : V) (evidence : List V) : List V :=
  g.nodes.filter fun v => v ∉ g.dsepNodes [target] evidence ∧ v ≠ target

/-- `graphutils.py:103-114` `markov_blanket`, first case (nothing hidden) -/
def markovBlanket (g : DiGraph V) (v : V) : List V :=
  let children := g.succ v
  let paCh := (children.flatMap g.pred).filter (· ≠ v)
  (children ++ g.pred v ++ paCh).dedup

/-- `graphutils.py:103-114` `markov_blanket`, second case -/
def markovBlanketHidden (g : DiGraph V) (v : V) (hidden : List V) : List V :=
  g.dconNodes v (g.nodes.filter fun x => x ∉ hidden ∧ x ≠ v)

end DiGraph
end Verif
