import Verif.Spec.Sum
import Mathlib.Algebra.BigOperators.Group.List.Basic
import Mathlib.Logic.Relation

/-!
# Specification: Bayesian networks as mathematical objects

A network is a list of nodes, the parents and the states of each node, and a table for each node,
given as a function of an assignment.  Joint probabilities and marginals are defined by brute
force.  Nothing here refers to factors, stores, or to any algorithm.
-/

namespace Verif

variable {V S K : Type} [DecidableEq V] [DecidableEq S]

/-- Sum of `f` over all joint states of the variables `xs`, the others being as in the
assignment. -/
def sumOver [AddCommMonoid K] (D : V → List S) : List V → ((V → S) → K) → (V → S) → K
  | [], f, a => f a
  | x :: xs, f, a => ((D x).map fun s => sumOver D xs f (upd a x s)).sum

/-- `f` looks only at the variables `vs`. -/
def DependsOn {β : Type} (f : (V → S) → β) (vs : List V) : Prop :=
  ∀ a b, (∀ v ∈ vs, a v = b v) → f a = f b

/-- A network. `table v a` is the entry of the table of `v` for the states that `a` gives to `v` and
to its parents. -/
structure BN (V S K : Type) where
  nodes : List V
  parents : V → List V
  states : V → List S
  table : V → (V → S) → K

namespace BN

/-- All nodes get one of their states. -/
def InStates (B : BN V S K) (a : V → S) : Prop := ∀ v ∈ B.nodes, a v ∈ B.states v

/-- Joint probability of a full assignment. -/
def joint [CommMonoid K] (B : BN V S K) (a : V → S) : K := (B.nodes.map fun v => B.table v a).prod

/-- Probability that the variables `vs` have the states that `a` gives them: the joint summed over
all states of the other nodes. -/
def marg [CommSemiring K] (B : BN V S K) (vs : List V) (a : V → S) : K :=
  sumOver B.states (B.nodes.filter (· ∉ vs)) B.joint a

/-- A directed acyclic graph over distinct nodes, non-empty lists of distinct states, and tables
that look only at the node and its parents. -/
structure Valid (B : BN V S K) : Prop where
  nodes : B.nodes.Nodup
  parents : ∀ v ∈ B.nodes, ∀ p ∈ B.parents v, p ∈ B.nodes
  acyclic : ∀ v, ¬ Relation.TransGen (fun u w => w ∈ B.nodes ∧ u ∈ B.parents w) v v
  nodupStates : ∀ v ∈ B.nodes, (B.states v).Nodup
  nonempty : ∀ v ∈ B.nodes, B.states v ≠ []
  scope : ∀ v ∈ B.nodes, DependsOn (B.table v) (v :: B.parents v)

/-- Each table is a conditional distribution: for every configuration of the parents the entries
sum to one. -/
def Normalised [Semiring K] (B : BN V S K) : Prop :=
  ∀ v ∈ B.nodes, ∀ a, B.InStates a → ((B.states v).map fun s => B.table v (upd a v s)).sum = 1

/-- No negative entry. -/
def NonNeg [Zero K] [LE K] (B : BN V S K) : Prop :=
  ∀ v ∈ B.nodes, ∀ a, B.InStates a → 0 ≤ B.table v a

end BN
end Verif
