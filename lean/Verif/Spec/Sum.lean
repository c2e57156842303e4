import Verif.DomainUtils

/-!
# Specification: assignments and sums over states

Small definitions in terms of which the properties of factors are stated.  They do not
refer to any data layout.
-/

namespace Verif

variable {V S : Type} [DecidableEq V] [DecidableEq S]

/-- The assignment `a` overridden by an observation. -/
def over (obs : Obs V S) (a : V → S) : V → S := fun v => (Dict.get? obs v).getD (a v)

/-- `a` with variable `v` set to `s`. -/
def upd (a : V → S) (v : V) (s : S) : V → S := fun w => if w = v then s else a w

/-- Sum of `f` over all joint states of the variables of `d`, the other variables being
as in `a`. -/
def sumStates {α : Type} [AddCommMonoid α] (f : (V → S) → α) : Dom V S → (V → S) → α
  | [], a => f a
  | p :: d, a => (p.2.map fun s => sumStates f d (upd a p.1 s)).sum

/-- All assignments obtained from `a` by giving the variables of `d` joint states. -/
def variants : Dom V S → (V → S) → List (V → S)
  | [], a => [a]
  | p :: d, a => p.2.flatMap fun s => variants d (upd a p.1 s)

/-- A domain with distinct variables, each with distinct states and at least one. -/
structure DomOk (d : Dom V S) : Prop where
  keys : (Dict.keys d).Nodup
  states : ∀ p ∈ d, p.2.Nodup
  nonempty : ∀ p ∈ d, p.2 ≠ []

/-- Shared variables have the same list of states. -/
def Compat (d1 d2 : Dom V S) : Prop := ∀ p ∈ d1, ∀ q ∈ d2, p.1 = q.1 → p.2 = q.2

/-- Shared variables have the same states, in any order. -/
def SetCompat (d1 d2 : Dom V S) : Prop := ∀ p ∈ d1, ∀ q ∈ d2, p.1 = q.1 → p.2.Perm q.2

/-- Variables of `d1` followed by the new ones of `d2`. -/
def domUnion (d1 d2 : Dom V S) : Dom V S := d1 ++ d2.filter fun p => p.1 ∉ Dict.keys d1

/-- The entries whose variable is in `vs` / is not in `vs`. -/
def domIn (d : Dom V S) (vs : List V) : Dom V S := d.filter fun p => p.1 ∈ vs
def domOut (d : Dom V S) (vs : List V) : Dom V S := d.filter fun p => p.1 ∉ vs

/-- The observation gives every variable of `d` one of its states. -/
def FullObs (d : Dom V S) (o : Obs V S) : Prop := ∀ p ∈ d, ∃ s ∈ p.2, Dict.get? o p.1 = some s

/-- The observation gives every variable outside `vs` one of its states and says nothing
about those in `vs`. -/
def FullObsOut (d : Dom V S) (vs : List V) (o : Obs V S) : Prop :=
  FullObs (domOut d vs) o ∧ ∀ v ∈ vs, v ∉ Dict.keys o

end Verif
