import Verif.Spec.BN
import Verif.Spec.Sum

/-!
# Learning: specification
-/

set_option linter.unusedSectionVars false

namespace Verif
namespace BN
variable {V S K : Type} [DecidableEq V] [DecidableEq S] [Field K]

/-- Probability of the states that `a` gives to `T` when `ev` is observed. -/
def post (B : BN V S K) (T : List V) (ev : Obs V S) (a : V → S) : K :=
  B.marg (T ++ Dict.keys ev) (over ev a) / B.marg (Dict.keys ev) (over ev a)

/-- The node and its parents, without those that are observed. -/
def hidden (B : BN V S K) (v : V) (o : Obs V S) : List V := (v :: B.parents v).filter (· ∉ Dict.keys o)

/-- Sum over weighted observations of the probability of the states that `a` gives to those of `v` and its parents that
are not observed. -/
def expCount (B : BN V S K) (v : V) (oc : List (Obs V S × ℕ)) (a : V → S) : K :=
  (oc.map fun p => B.post (B.hidden v p.1) p.1 a * (p.2 : K)).sum

/-- The network in which the tables of `vs` are obtained from counts `N`. -/
def reest (B : BN V S K) (vs : List V) (N : V → (V → S) → K) : BN V S K :=
  { B with table := fun v a => if v ∈ vs then N v a / ((B.states v).map fun s => N v (upd a v s)).sum else B.table v a }

end BN
end Verif
