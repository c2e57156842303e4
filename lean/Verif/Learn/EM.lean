import Verif.Learn.Iterative
import Verif.Learn.Data
import Verif.Inference.VE

/-!
# Expectation maximisation (`learning/parameter/expectation_maximization.py`)

The models have multinomial factors only, which is what a model becomes when its equations are cast, and all factors use
the default store.  For such a model the `builder` of a structural causal model does what that of a Bayesian network does,
apart from the test that equations are degenerate, which is made once, when the prior is copied.
-/

set_option linter.unusedSectionVars false
set_option linter.unusedSimpArgs false

namespace Verif

variable {V S K : Type} [DecidableEq V] [DecidableEq S] [Field K] [LinearOrder K]

/-- `factor.py` `f * c` for a number: `mulitnomial.py:78-89` -/
def Factor.timesScalar {I : StoreImpl V S (Fl K)} (f : Factor I) (c : Fl K) : Py (Factor I) := do
  let g ← f.prepareScalar c
  f.multiply g

/-- An `ExpectationMaximization` object.  `_trainable_vars` is empty here when it is `None` in python (an empty list is
treated in the same way, line 85); `_model` is the prior until `initialize` sets it. `_datadeps` consists of the data and
of the graph of the model, which no step changes. -/
structure EM (I : StoreImpl V S (Fl K)) where
  prior : DagModel (Factor I) V S
  model : DagModel (Factor I) V S
  trainable : List V
  converged : List V
  data : Frame V S

namespace EM
variable {I : StoreImpl V S (Fl K)}

/-- `expectation_maximization.py:43-48` constructor -/
def new (prior : DagModel (Factor I) V S) (trainable : Option (List V)) : EM I :=
  ⟨prior, prior, trainable.getD [], [], ⟨[], []⟩⟩

/-- `expectation_maximization.py:81-82`: columns of missing values for the variables that are not in the data (the frame
of the caller is changed, too) -/
def addMissing (vs : List V) (fr : Frame V S) : Frame V S :=
  let miss := vs.filter (· ∉ fr.cols)
  ⟨fr.cols ++ miss, fr.rows.map fun r => r ++ miss.map fun v => (v, none)⟩

/-- `expectation_maximization.py:24-26` `initialize`, `79-89` `_process_data`; `copy` is `pgmodel.py:199-200` -/
def init (s : EM I) (data : Frame V S) : Py (EM I) := do
  let m ← DagModel.ofDict s.prior.graph s.prior.factors true
  let data := addMissing s.prior.graph.nodes data
  let tr := if s.trainable = [] then data.cols.filter data.hasNa else s.trainable
  return { s with model := m, data := data, trainable := tr }

/-- `model.domains[v]`, as needed for a new factor: `None` is not iterable -/
def stateList (m : DagModel (Factor I) V S) (v : V) : Py (V × List S) := do
  match ← Dict.get m.domains v with
  | some st => return (v, st)
  | none => throw .typeError

/-- `expectation_maximization.py:33-37` `get_pcounts` -/
def zeroCounts (m : DagModel (Factor I) V S) (v : V) : Py (Factor I) := do
  let pa ← m.getParents [v]
  let d ← (v :: pa).mapM (stateList m)
  Factor.makeScalar I d (.fin 0) none none

/-- `expectation_maximization.py:62-68`: what one observation contributes to the counts of `v`, whose parents are `pa` -/
def addCounts (ch : Choices V) (v : V) (pa : List V) (st : VEObj (Factor I) I × Factor I) (oc : Obs V S × ℕ) :
    Py (VEObj (Factor I) I × Factor I) := do
  let hidden := (v :: pa).filter fun x => x ∉ Dict.keys oc.1
  let r := st.1.query ch hidden (some oc.1)
  let p ← r.2
  let e ← p.timesScalar (.fin (oc.2 : K))
  let f ← st.2.addition e
  return (r.1, f)

/-- `expectation_maximization.py:60`, `74`: the variables that are treated, in the order of a set -/
def todo (ch : Choices V) (s : EM I) : List V := ch.setOrd (s.trainable.filter fun v => v ∉ s.converged)

/-- `expectation_maximization.py:56-70` `_expectation`: the counts of the variables that are treated (those of the others
are zero and not used) -/
def expectation (ch : Choices V) (s : EM I) : Py (List (V × Factor I)) := do
  let p0 ← s.trainable.mapM fun v => do
    let f ← zeroCounts s.prior v
    return (v, f)
  let r ← (todo ch s).foldlM (fun (st : VEObj (Factor I) I × List (V × Factor I)) v => do
    let oc ← obsCounts s.model.graph s.data v
    let pa ← s.prior.getParents [v]
    let f0 ← Dict.get p0 v
    let q ← oc.foldlM (addCounts ch v pa) (st.1, f0)
    return (q.1, st.2 ++ [(v, q.2)])) (VEObj.new s.model, [])
  return r.2

/-- `expectation_maximization.py:72-77` `_maximization` -/
def maximization (counts : List (V × Factor I)) : Py (List (V × Factor I)) :=
  counts.mapM fun p => do
    let g ← p.2.marginalize [p.1]
    let q ← p.2.divide g
    return (p.1, q)

/-- `parameter.py:61-64` `_update_model` without the recording -/
def updateModel (m : DagModel (Factor I) V S) (new : List (V × Factor I)) : Py (DagModel (Factor I) V S) := do
  let rest ← (m.graph.nodes.filter fun v => v ∉ Dict.keys new).mapM fun v => do
    let f ← Dict.get m.factors v
    return (v, f)
  DagModel.ofDict m.graph (new.map (fun p => (p.1, some p.2)) ++ rest) false

/-- `expectation_maximization.py:28-30`, `parameter.py:24-27`: one step -/
def update (ch : Choices V) (s : EM I) : Py (EM I) := do
  let counts ← expectation ch s
  let new ← maximization counts
  let m ← updateModel s.model new
  return { s with model := m }

/-- `model.factors[v].values` -/
def tableOf (m : DagModel (Factor I) V S) (v : V) : Py (List (Fl K)) := do
  match ← Dict.get m.factors v with
  | some f => f.valuesList
  | none => throw .attributeError

/-- `evolution[-k]` -/
def fromEnd {X : Type} (l : List X) (k : Nat) : Py X :=
  if k ≤ l.length then match l[l.length - k]? with
    | some x => .ok x
    | none => .error .indexError
  else .error .indexError

/-- `expectation_maximization.py:91-101` `_stop_learning`.  `kl p q` is the verdict `sum(rel_entr(p, q)) == 0`, about which
nothing is assumed. -/
def stop (kl : List (Fl K) → List (Fl K) → Bool) (s : EM I) (evo : List (DagModel (Factor I) V S)) : Py (EM I × Bool) := do
  let conv ← s.trainable.foldlM (fun conv v =>
    if v ∈ conv then .ok conv else do
      let m1 ← fromEnd evo 2
      let p ← tableOf m1 v
      let m2 ← fromEnd evo 1
      let q ← tableOf m2 v
      if kl p q then return conv ++ [v] else return conv) s.converged
  return ({ s with converged := conv }, decide (SameSet s.trainable conv))

/-- `ExpectationMaximization` as an instance of `IterativeParameterLearning` -/
def learner (ch : Choices V) (kl : List (Fl K) → List (Fl K) → Bool) : Learner (EM I) (Frame V S) (DagModel (Factor I) V S) where
  prior := prior
  model := model
  init := init
  update := update ch
  stop := stop kl

end EM
end Verif
