import Verif.Inference.VE
import Verif.Factor.Rep
import Verif.Spec.BN
import Verif.Spec.Graph

/-!
# When a model object represents a network

The relation between the objects that the code manipulates and the networks of `Spec/BN.lean`.
-/

set_option linter.unusedSectionVars false
set_option linter.unusedSimpArgs false

namespace Verif

variable {V S K : Type} [DecidableEq V] [DecidableEq S] [Nonempty S] [Field K] [LinearOrder K]
  {I : StoreImpl V S (Fl K)}

/-- `g` is the table of node `v`: `v` on the left, its parents on the right, the states of the
network, and the (finite) entries of the table. -/
structure IsTable (B : BN V S K) (v : V) (g : Factor I) : Prop where
  wf : g.WF
  left : ∀ w, w ∈ g.leftVars ↔ w = v
  right : ∀ w, w ∈ g.rightVars ↔ w ∈ B.parents v
  vars : ∀ w, w ∈ g.vars ↔ w = v ∨ w ∈ B.parents v
  dom : ∀ p ∈ g.dom, p.2 = B.states p.1
  value : ∀ obs, FullObs g.dom obs → g.getValue obs = .ok (.fin (B.table v (asg obs)))

/-- The model object `m` has the graph of `B` and for each node a multinomial factor that is its
table. -/
structure Represents {F : Type} [VEFactor F I] (m : DagModel F V S) (B : BN V S K) : Prop where
  wf : m.graph.WF
  nodes : m.graph.nodes = B.nodes
  parents : ∀ v ∈ B.nodes, ∀ p, p ∈ B.parents v ↔ (p, v) ∈ m.graph.edges
  keys : Dict.keys m.factors = m.graph.nodes
  table : ∀ v ∈ B.nodes, ∃ f g, Dict.get? m.factors v = some (some f) ∧ VEFactor.view f = some g ∧ IsTable B v g

/-- Admissible choices: whatever the order of sets; the heuristic returns each variable to remove once. -/
structure Choices.Ok (ch : Choices V) : Prop where
  heur : ∀ (g : DiGraph V) rm sizes, g.WF → g.Acyclic → rm.Nodup → (∀ v ∈ rm, v ∈ g.nodes) →
    (∀ v ∈ g.nodes, v ∈ Dict.keys sizes) → ∃ o, ch.heur g rm sizes = .ok o ∧ o.Perm rm
  setOrd : ∀ l, (ch.setOrd l).Nodup ∧ ∀ v, v ∈ ch.setOrd l ↔ v ∈ l

/-- The evidence is a dictionary over nodes, each observed in one of its states. -/
structure EvOk (B : BN V S K) (ev : Obs V S) : Prop where
  nodup : (Dict.keys ev).Nodup
  nodes : ∀ v ∈ Dict.keys ev, v ∈ B.nodes
  states : ∀ v s, Dict.get? ev v = some s → s ∈ B.states v

end Verif
