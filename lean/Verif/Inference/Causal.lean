import Verif.Model.SCM
import Verif.Inference.VE

/-!
# Causal inference (`inference/causal/causal.py`, `inference/causal/elimination.py`)

Each query builds its own model and its own probabilistic inference object, so the queries are functions of the model.
`sfx v i` is the name `f"{v}_{i}"`.
-/

set_option linter.unusedSectionVars false
set_option linter.unusedSimpArgs false

namespace Verif
namespace Causal

variable {V S K : Type} [DecidableEq V] [DecidableEq S] [Field K] [LinearOrder K]
  {I : StoreImpl V S (Fl K)} {L : LabelStore V S}

/-- `inference/causal/elimination.py:11-14` constructor of `CausalVariableElimination` -/
def new (m : SCM I L) : Py (SCM I L) := m.toMultinomial

/-- `causal.py:21-50`, `76-88`: `causal_query` -/
def causalQuery (ch : Choices V) (m : SCM I L) (target : List V) (doo : Obs V S) (ev : Option (Obs V S)) :
    Py (Factor I) := do
  if ¬ (∀ v ∈ Dict.keys doo, v ∈ m.base.graph.nodes) then throw .nodeNotFound
  let evidence := Dict.merge (ev.getD []) doo
  let im ← m.intervention doo
  ((VEObj.new im.base : VEObj _ I).query ch target (some evidence)).2

/-- `causal.py:59-63`: the model of the `i`-th hypothetical world -/
def world (sfx : V → Nat → V) (m : SCM I L) (p : Obs V S × Nat) : Py (SCM I L) := do
  let im ← m.intervention p.1
  im.renameVars (m.endogenous.map fun v => (v, sfx v (p.2 + 1)))

/-- `causal.py:52-69` `_preprocess` for a counterfactual query -/
def cfModel (sfx : V → Nat → V) (setOrd : List V → List V) (m : SCM I L) (dos : List (Obs V S)) : Py (SCM I L) := do
  let ws ← dos.zipIdx.mapM (world sfx m)
  let models := m :: ws
  SCM.fusionRoots setOrd models m.exogenous (models.flatMap SCM.endogenous)

/-- `causal.py:34-40`: the interventions under their names in the fused model -/
def cfDo (sfx : V → Nat → V) (dos : List (Obs V S)) : Obs V S :=
  (dos.zipIdx.flatMap fun p => p.1.map fun q => (sfx q.1 (p.2 + 1), q.2)).foldl (fun d q => Dict.set d q.1 q.2) []

/-- `causal.py:82-84`: names of the targets -/
def cfTarget (sfx : V → Nat → V) (target : List V) (subs : Option (List Nat)) : List V :=
  let subs := match subs with
    | none => List.replicate target.length 1
    | some [] => List.replicate target.length 1
    | some l => l
  (target.zip subs).map fun p => sfx p.1 p.2

/-- `causal.py:21-50`, `79-91` `counterfactual_query`; one dictionary counts as a list of one. -/
def counterfactualQuery (sfx : V → Nat → V) (ch : Choices V) (m : SCM I L) (target : List V) (dos : List (Obs V S))
    (ev : Option (Obs V S)) (subs : Option (List Nat)) : Py (Factor I) := do
  let target := cfTarget sfx target subs
  if ¬ (∀ d ∈ dos, ∀ v ∈ Dict.keys d, v ∈ m.base.graph.nodes) then throw .nodeNotFound
  let evidence := Dict.merge (ev.getD []) (cfDo sfx dos)
  let im ← cfModel sfx ch.setOrd m dos
  ((VEObj.new im.base : VEObj _ I).query ch target (some evidence)).2

/-- `causal.py:93-103` `prob_necessity_sufficiency` with given true and false states -/
def pns (sfx : V → Nat → V) (ch : Choices V) (m : SCM I L) (cause effect : V) (tc fc te fe : S) : Py (Fl K) := do
  let r ← counterfactualQuery sfx ch m [effect, effect] [[(cause, fc)], [(cause, tc)]] none (some [1, 2])
  r.getValue [(sfx effect 1, fe), (sfx effect 2, te)]

/-- `causal.py:108-120` `prob_necessity` -/
def pn (sfx : V → Nat → V) (ch : Choices V) (m : SCM I L) (cause effect : V) (tc fc te fe : S) : Py (Fl K) := do
  let r ← counterfactualQuery sfx ch m [effect] [[(cause, fc)]] (some [(cause, tc), (effect, te)]) none
  r.getValue [(sfx effect 1, fe)]

/-- `causal.py:122-134` `prob_sufficiency` -/
def ps (sfx : V → Nat → V) (ch : Choices V) (m : SCM I L) (cause effect : V) (tc fc te fe : S) : Py (Fl K) := do
  let r ← counterfactualQuery sfx ch m [effect] [[(cause, tc)]] (some [(cause, fc), (effect, fe)]) none
  r.getValue [(sfx effect 1, te)]

end Causal
end Verif
