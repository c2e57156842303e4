import Verif.Spec.BN
import Verif.Learn.Data
import Mathlib.Algebra.BigOperators.Group.List.Basic

/-!
# The likelihood of a record for one exogenous variable

Independent of the code: the equations of the endogenous children of an exogenous variable `U`, and the probability, when `U` has the
distribution `θ`, that they give the values of a record.
-/

namespace Verif

variable {V S K : Type} [DecidableEq V] [DecidableEq S]

namespace BN

/-- The endogenous children of `U` -/
def kids (B : BN V S K) (E : List V) (U : V) : List V := B.nodes.filter fun v => v ∈ E ∧ U ∈ B.parents v

/-- The endogenous children of `U` and their endogenous parents -/
def compScope (B : BN V S K) (E : List V) (U : V) : List V :=
  B.nodes.filter fun v => v ∈ B.kids E U ∨ (v ∈ E ∧ ∃ w ∈ B.kids E U, v ∈ B.parents w)

/-- `∑_u θ_u ∏_v P(v | pa v)`, over the states `u` of `U` and its endogenous children `v`, the other variables being as in `a` -/
def compLik [CommSemiring K] (B : BN V S K) (E : List V) (U : V) (θ : S → K) (a : V → S) : K :=
  ((B.states U).map fun u => θ u * ((B.kids E U).map fun v => B.table v (upd a U u)).prod).sum

/-- The record has a state of the network for each of `vs`. -/
def within (B : BN V S K) (vs : List V) (r : Rec V S) : Bool := vs.all fun v => (Rec.val r v).any (· ∈ B.states v)

end BN

/-- The values of a record, as an assignment -/
def Rec.asg [Inhabited S] (r : Rec V S) : V → S := fun v => (Rec.val r v).getD default

end Verif
