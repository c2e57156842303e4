import Verif.Graph.Ordering

/-!
# Specification: the elimination game

Which variables are adjacent after eliminating the variables `X`: those joined in the moral graph
by a path through `X`.  No graph is modified here; from `Graph/Ordering.lean` only the names of the three heuristics are used.
-/

namespace Verif.Ordering

variable {V : Type} [DecidableEq V]

/-- Adjacent in the moral graph: joined by an arc, or parents of the same child. -/
def Moral (g : DiGraph V) (x y : V) : Prop :=
  x ≠ y ∧ ((x, y) ∈ g.edges ∨ (y, x) ∈ g.edges ∨ ∃ c, (x, c) ∈ g.edges ∧ (y, c) ∈ g.edges)

/-- Joined by a path of the moral graph whose inner nodes are in `X`. -/
inductive Via (g : DiGraph V) (X : List V) : V → V → Prop
  | edge {x y} : Moral g x y → Via g X x y
  | step {x z y} : Moral g x z → z ∈ X → Via g X z y → Via g X x y

/-- Adjacent after eliminating `X`. -/
def ElimAdj (g : DiGraph V) (X : List V) (x y : V) : Prop := x ≠ y ∧ x ∉ X ∧ y ∉ X ∧ Via g X x y

open Classical in
/-- The neighbours of `v` after eliminating `X`. -/
noncomputable def elimNbrs (g : DiGraph V) (X : List V) (v : V) : List V := g.nodes.filter fun w => ElimAdj g X v w

open Classical in
/-- Ordered pairs of neighbours of `v` that are not adjacent. -/
noncomputable def missing (g : DiGraph V) (X : List V) (v : V) : Nat :=
  ((elimNbrs g X v).map fun x => ((elimNbrs g X v).filter fun y => x ≠ y ∧ ¬ ElimAdj g X x y).length).sum

/-- Cost of `v` after eliminating `X`, from the specification (twice the number of fill-in arcs for `minFill`). -/
noncomputable def specCost (g : DiGraph V) (size : V → Nat) (k : Kind) (X : List V) (v : V) : Nat :=
  match k with
  | .minSize => (elimNbrs g X v).length
  | .minFill => missing g X v
  | .minWeight => ((elimNbrs g X v).map size).prod * size v

end Verif.Ordering
