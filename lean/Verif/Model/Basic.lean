import Verif.Graph.Basic
import Verif.Factor.Deterministic

/-!
# Models (`models/pgmodel.py`, `models/bnet.py`, `models/cmodel.py`)

A model object is its graph and the dictionaries `_factors` and `_domains`.  Methods that change
the object in place return the changed object; when they raise, python leaves the object as it
was, because all checks precede the first assignment.
-/

set_option linter.unusedSectionVars false
set_option linter.unusedSimpArgs false

namespace Verif

/-- Equality of the python sets made of two lists -/
def SameSet {X : Type} (xs ys : List X) : Prop := (∀ x ∈ xs, x ∈ ys) ∧ ∀ y ∈ ys, y ∈ xs

instance {X : Type} [DecidableEq X] (xs ys : List X) : Decidable (SameSet xs ys) := by
  unfold SameSet; infer_instance

/-- What models ask of a factor (`DiscreteFactor`, `ConditionalFactor`). -/
class FactorLike (F : Type) (V S : outParam Type) where
  dom : F → Dom V S
  leftVars : F → List V
  rightVars : F → List V

/-- `PGModel`/`DiscreteDAGModel` object -/
structure DagModel (F V S : Type) where
  graph : DiGraph V
  /-- `_factors` -/
  factors : List (V × Option F)
  /-- `_domains` -/
  domains : List (V × Option (List S))
  /-- `_check_factors` -/
  check : Bool

namespace DagModel

variable {F V S : Type} [DecidableEq V] [DecidableEq S] [FactorLike F V S]

/-- `pgmodel.py:117-122` and `23-27` `_initialize` for a directed graph (`ValueError` for a cyclic one); the
constructors then overwrite `_check_factors`. -/
def init (g : DiGraph V) (check : Bool) : Py (DagModel F V S) :=
  if g.hasCycle then .error .valueError
  else .ok ⟨g, g.nodes.map fun x => (x, none), g.nodes.map fun x => (x, none), check⟩

/-- `pgmodel.py:65-66`: the states `st` agree, as a set, with what is known of the variable -/
def domFits : Option (Option (List S)) → List S → Bool
  | some (some st'), st => SameSet st' st
  | _, _ => true

/-- `pgmodel.py:58-66`: the checks on the factor `f` for `v` -/
def checkFactor (m : DagModel F V S) (v : V) (f : F) : Py Unit := do
  let pa ← m.graph.predecessors v
  if ¬ SameSet pa (FactorLike.rightVars f) then throw .valueError
  if ¬ SameSet [v] (FactorLike.leftVars f) then throw .valueError
  if ¬ (∀ p ∈ FactorLike.dom f, domFits (Dict.get? m.domains p.1) p.2) then throw .valueError

/-- `pgmodel.py:49-73` `set_factor`. `None` is refused as not discrete when checks are on
(line 54); otherwise `f.domain` fails when it is needed (line 70). -/
def setFactor (m : DagModel F V S) (v : V) : Option F → Py (DagModel F V S)
  | none =>
    if m.check then .error .valueError else
    match Dict.get? m.domains v with
    | some (some _) => .ok { m with factors := Dict.set m.factors v none }
    | _ => .error .attributeError
  | some f => do
    if m.check then m.checkFactor v f
    match Dict.get? m.domains v with
    | some (some _) => .ok { m with factors := Dict.set m.factors v (some f) }
    | _ => do
      let st ← Dict.get (FactorLike.dom f) v
      .ok { m with factors := Dict.set m.factors v (some f), domains := Dict.set m.domains v (some st) }

/-- `pgmodel.py:128-131` `_set_factors` for a dictionary -/
def setFactorsDict (m : DagModel F V S) (fs : List (V × Option F)) : Py (DagModel F V S) :=
  fs.foldlM (fun m p => m.setFactor p.1 p.2) m

/-- `pgmodel.py:134-135`: the variable under which a factor of a list is set -/
def leftOf (f : F) : Py V :=
  if (FactorLike.leftVars f).length > 1 then .error .valueError else
  match FactorLike.leftVars f with
  | [] => .error .indexError
  | v :: _ => .ok v

/-- `pgmodel.py:132-135` `_set_factors` for a list -/
def setFactorsList (m : DagModel F V S) (fs : List F) : Py (DagModel F V S) :=
  fs.foldlM (fun m f => do
    let v ← leftOf f
    m.setFactor v (some f)) m

/-- `bnet.py:12-16` `BayesianNetwork(dag, factors, check_factors)` for a dictionary -/
def ofDict (g : DiGraph V) (fs : List (V × Option F)) (check : Bool) : Py (DagModel F V S) := do
  let m ← init g check
  m.setFactorsDict fs

/-- `bnet.py:12-16` `BayesianNetwork(dag, factors, check_factors)` for a list -/
def ofList (g : DiGraph V) (fs : List F) (check : Bool) : Py (DagModel F V S) := do
  let m ← init g check
  m.setFactorsList fs

/-- `pgmodel.py:140-141` `get_domains` for a collection of names -/
def getDomains (m : DagModel F V S) (vs : List V) : List (V × Option (List S)) :=
  m.domains.filter fun p => p.1 ∈ vs

/-- `pgmodel.py:143-144`, `151-153` `varsizes`; `len(None)` is a `TypeError` -/
def varsizes (m : DagModel F V S) : Py (List (V × Nat)) :=
  (m.domains.filter fun p => p.1 ∈ m.graph.nodes).mapM fun p =>
    match p.2 with
    | some st => .ok (p.1, st.length)
    | none => .error .typeError

/-- `pgmodel.py:155-156` `get_children` -/
def getChildren (m : DagModel F V S) (vs : List V) : Py (List V) := do
  let l ← vs.mapM m.graph.successors
  return l.flatten.reverse.dedup.reverse

/-- `pgmodel.py:158-159` `get_parents` -/
def getParents (m : DagModel F V S) (vs : List V) : Py (List V) := do
  let l ← vs.mapM m.graph.predecessors
  return l.flatten.reverse.dedup.reverse

/-- `pgmodel.py:161-167` `markov_blanket` -/
def markovBlanket (m : DagModel F V S) (v : V) : Py (List V) := do
  let ch ← m.getChildren [v]
  let pa ← m.getParents [v]
  let paCh ← m.getParents ch
  return (ch ++ pa ++ paCh.filter (· ≠ v)).dedup

end DagModel

section
variable {V S α : Type} [DecidableEq V] [DecidableEq S] [Inhabited α] {I : StoreImpl V S α} {L : LabelStore V S}

instance : FactorLike (Factor I) V S := ⟨Factor.dom, Factor.leftVars, Factor.rightVars⟩

/-- A factor of a structural causal model -/
inductive AnyFactor (I : StoreImpl V S α) (L : LabelStore V S)
  | multi (f : Factor I)
  | det (f : DetFactor L)

namespace AnyFactor

def dom : AnyFactor I L → Dom V S
  | .multi f => f.dom
  | .det f => f.dom
def leftVars : AnyFactor I L → List V
  | .multi f => f.leftVars
  | .det f => f.leftVars
def rightVars : AnyFactor I L → List V
  | .multi f => f.rightVars
  | .det f => f.rightVars

instance : FactorLike (AnyFactor I L) V S := ⟨dom, leftVars, rightVars⟩

/-- `deterministic.py` `restrict` is not implemented -/
def restrict (f : AnyFactor I L) (obs : Obs V S) : Py (Factor I) :=
  match f with
  | .multi f => f.restrict obs
  | .det _ => .error .notImplemented

end AnyFactor
end
end Verif
