import Verif.Spec.BN
import Verif.Py.Basic

/-!
# Specification: interventions and potential outcomes

Definitions on the mathematical networks of `Spec/BN.lean`.
-/

namespace Verif
namespace BN

variable {V S K : Type} [DecidableEq V] [DecidableEq S]

/-- The assignment gives the intervened variables the imposed states. -/
def Agrees (d : Obs V S) (a : V → S) : Prop := ∀ v s, Dict.get? d v = some s → a v = s

instance (d : Obs V S) (a : V → S) : Decidable (Agrees d a) :=
  decidable_of_iff (∀ p ∈ d, Dict.get? d p.1 = some p.2 → a p.1 = p.2)
    ⟨fun h v s hs => h (v, s) (Dict.mem_of_get? hs) hs, fun h p _ hp => h p.1 p.2 hp⟩

/-- Truncated product: the tables of the variables that are not intervened. -/
def trunc [CommMonoid K] (B : BN V S K) (d : Obs V S) (a : V → S) : K :=
  ((B.nodes.filter (· ∉ Dict.keys d)).map fun v => B.table v a).prod

/-- Truncated factorisation: the joint distribution under `do(d)`. -/
def doJoint [CommMonoid K] [Zero K] (B : BN V S K) (d : Obs V S) (a : V → S) : K :=
  if Agrees d a then B.trunc d a else 0

/-- The network in which the intervened variables have no parents and are constant. -/
def doBN [Zero K] [One K] (B : BN V S K) (d : Obs V S) : BN V S K where
  nodes := B.nodes
  parents v := if v ∈ Dict.keys d then [] else B.parents v
  states := B.states
  table v a := match Dict.get? d v with
    | some s => if a v = s then 1 else 0
    | none => B.table v a

/-- The node that is called `w` after renaming with `ρ`. -/
def unname (B : BN V S K) (ρ : V → V) (w : V) : V := (B.nodes.find? fun v => ρ v = w).getD w

/-- The network with its nodes renamed. -/
def relabel (B : BN V S K) (ρ : V → V) : BN V S K where
  nodes := B.nodes.map ρ
  parents w := (B.parents (B.unname ρ w)).map ρ
  states w := B.states (B.unname ρ w)
  table w a := B.table (B.unname ρ w) fun v => a (ρ v)

/-- Probability of the states that `a` gives to `vs` after `do(d)`. -/
def doMarg [CommSemiring K] (B : BN V S K) (d : Obs V S) (vs : List V) (a : V → S) : K :=
  sumOver B.states (B.nodes.filter (· ∉ vs)) (B.doJoint d) a

/-- The exogenous variables: the nodes without parents. -/
def roots (B : BN V S K) : List V := B.nodes.filter fun v => B.parents v = []

/-- The endogenous variables: the nodes with parents. -/
def inner (B : BN V S K) : List V := B.nodes.filter fun v => B.parents v ≠ []

/-- `b` is a solution of the structural equations of the variables `endo` when the states `d` are imposed. -/
def Solves [One K] (B : BN V S K) (endo : List V) (d : Obs V S) (b : V → S) : Prop :=
  ∀ v ∈ endo, b v ∈ B.states v ∧ (∀ s, Dict.get? d v = some s → b v = s) ∧ (Dict.get? d v = none → B.table v b = 1)

/-- With the exogenous states `u`, the world in which `w.1` is imposed has the states `w.2`. -/
def Holds [One K] (B : BN V S K) (exo endo : List V) (u : V → S) (w : Obs V S × Obs V S) : Prop :=
  ∃ b, (∀ x ∈ exo, b x = u x) ∧ B.Solves endo w.1 b ∧ Agrees w.2 b

open Classical in
/-- Counterfactual probability: the mass of the exogenous states for which each of the worlds (imposed states, observed
states) has the observed states. -/
noncomputable def cfProb [CommSemiring K] [Inhabited S] (B : BN V S K) (exo endo : List V) (ws : List (Obs V S × Obs V S)) : K :=
  sumOver B.states exo (fun u => if ∀ w ∈ ws, B.Holds exo endo u w then (exo.map fun x => B.table x u).prod else 0) fun _ => default

end BN
end Verif
