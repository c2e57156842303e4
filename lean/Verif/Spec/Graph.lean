import Verif.Graph.Basic

/-!
# Specification: paths, cycles and ancestors in directed graphs
-/

namespace Verif.DiGraph
open Relation

variable {V : Type}

/-- Edge relation. -/
def Edge (g : DiGraph V) (u v : V) : Prop := (u, v) ∈ g.edges
/-- Undirected edge relation. -/
def UEdge (g : DiGraph V) (u v : V) : Prop := (u, v) ∈ g.edges ∨ (v, u) ∈ g.edges
/-- No directed cycle. -/
def Acyclic (g : DiGraph V) : Prop := ∀ v, ¬ TransGen g.Edge v v

/-- Nodes with a descendant (or themselves) in `S`. -/
def Needed (g : DiGraph V) (S : List V) (v : V) : Prop := ∃ s ∈ S, ReflTransGen g.Edge v s

end Verif.DiGraph
