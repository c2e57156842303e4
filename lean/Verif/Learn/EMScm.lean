import Verif.Learn.EM
import Verif.Model.Random
import Verif.Inference.Causal
import Verif.Factor.Interval

/-!
# Expectation maximisation on structural causal models, and `EMCC`

The same code as in `EM`, run on objects of the class `StructuralCausalModel`: `copy` and `builder` are those of that class
(`cmodel.py:158-161`), so that the models that are made have the same endogenous variables and the same casting of equations.
-/

set_option linter.unusedSectionVars false
set_option linter.unusedSimpArgs false

namespace Verif

variable {V S K : Type} [DecidableEq V] [DecidableEq S] [Field K] [LinearOrder K]

/-- An `ExpectationMaximization` object whose prior is a structural causal model; see `EM`. -/
structure ScmEM (I : StoreImpl V S (Fl K)) (L : LabelStore V S) where
  prior : SCM I L
  model : SCM I L
  trainable : List V
  converged : List V
  data : Frame V S

namespace ScmEM
variable {I : StoreImpl V S (Fl K)} {L : LabelStore V S}

/-- `expectation_maximization.py:43-48` constructor -/
def new (prior : SCM I L) (trainable : Option (List V)) : ScmEM I L := ⟨prior, prior, trainable.getD [], [], ⟨[], []⟩⟩

/-- `expectation_maximization.py:24-26` `initialize`, `79-89` `_process_data` -/
def init (s : ScmEM I L) (data : Frame V S) : Py (ScmEM I L) := do
  let m ← s.prior.copy
  let data := EM.addMissing s.prior.base.graph.nodes data
  let tr := if s.trainable = [] then data.cols.filter data.hasNa else s.trainable
  return { s with model := m, data := data, trainable := tr }

/-- `model.domains[v]`, as needed for a new factor: `None` is not iterable -/
def stateList (m : SCM I L) (v : V) : Py (V × List S) := do
  match ← Dict.get m.base.domains v with
  | some st => return (v, st)
  | none => throw .typeError

/-- `expectation_maximization.py:33-37` `get_pcounts` -/
def zeroCounts (m : SCM I L) (v : V) : Py (Factor I) := do
  let pa ← m.base.getParents [v]
  let d ← (v :: pa).mapM (stateList m)
  Factor.makeScalar I d (.fin 0) none none

/-- `expectation_maximization.py:62-68`: what one observation contributes to the counts of `v`, whose parents are `pa` -/
def addCounts (ch : Choices V) (v : V) (pa : List V) (st : VEObj (AnyFactor I L) I × Factor I) (oc : Obs V S × ℕ) :
    Py (VEObj (AnyFactor I L) I × Factor I) := do
  let hidden := (v :: pa).filter fun x => x ∉ Dict.keys oc.1
  let r := st.1.query ch hidden (some oc.1)
  let p ← r.2
  let e ← p.timesScalar (.fin (oc.2 : K))
  let f ← st.2.addition e
  return (r.1, f)

/-- `expectation_maximization.py:60`, `74`: the variables that are treated, in the order of a set -/
def todo (ch : Choices V) (s : ScmEM I L) : List V := ch.setOrd (s.trainable.filter fun v => v ∉ s.converged)

/-- `expectation_maximization.py:60-68`: the counts of one variable -/
def countOne (ch : Choices V) (s : ScmEM I L) (p0 : List (V × Factor I)) (st : VEObj (AnyFactor I L) I × List (V × Factor I)) (v : V) :
    Py (VEObj (AnyFactor I L) I × List (V × Factor I)) := do
  let oc ← obsCounts s.model.base.graph s.data v
  let pa ← s.prior.base.getParents [v]
  let f0 ← Dict.get p0 v
  let q ← oc.foldlM (addCounts ch v pa) (st.1, f0)
  return (q.1, st.2 ++ [(v, q.2)])

/-- `expectation_maximization.py:56-70` `_expectation` -/
def expectation (ch : Choices V) (s : ScmEM I L) : Py (List (V × Factor I)) := do
  let p0 ← s.trainable.mapM fun v => do
    let f ← zeroCounts s.prior v
    return (v, f)
  let r ← (todo ch s).foldlM (countOne ch s p0) (VEObj.new s.model.base, [])
  return r.2

/-- `parameter.py:61-64` `_update_model` without the recording; `builder` is `cmodel.py:158-161` -/
def updateModel (m : SCM I L) (new : List (V × Factor I)) : Py (SCM I L) := do
  let rest ← (m.base.graph.nodes.filter fun v => v ∉ Dict.keys new).mapM fun v => do
    let f ← Dict.get m.base.factors v
    return (v, f)
  SCM.ofDict m.base.graph (new.map (fun p => (p.1, some (.multi p.2))) ++ rest) (some m.endogenous) m.cast false

/-- `expectation_maximization.py:28-30`, `parameter.py:24-27`: one step -/
def update (ch : Choices V) (s : ScmEM I L) : Py (ScmEM I L) := do
  let counts ← expectation ch s
  let new ← EM.maximization counts
  let m ← updateModel s.model new
  return { s with model := m }

/-- `model.factors[v].values` as numbers: `rel_entr` of labels is a `TypeError` -/
def tableOf (m : SCM I L) (v : V) : Py (List (Fl K)) := do
  match ← Dict.get m.base.factors v with
  | some (.multi f) => f.valuesList
  | some (.det _) => throw .typeError
  | none => throw .attributeError

/-- `expectation_maximization.py:95-100`: one variable -/
def stopOne (kl : List (Fl K) → List (Fl K) → Bool) (evo : List (SCM I L)) (conv : List V) (v : V) : Py (List V) :=
  if v ∈ conv then .ok conv else do
    let m1 ← EM.fromEnd evo 2
    let p ← tableOf m1 v
    let m2 ← EM.fromEnd evo 1
    let q ← tableOf m2 v
    if kl p q then return conv ++ [v] else return conv

/-- `expectation_maximization.py:91-101` `_stop_learning` -/
def stop (kl : List (Fl K) → List (Fl K) → Bool) (s : ScmEM I L) (evo : List (SCM I L)) : Py (ScmEM I L × Bool) := do
  let conv ← s.trainable.foldlM (stopOne kl evo) s.converged
  return ({ s with converged := conv }, decide (SameSet s.trainable conv))

/-- `ExpectationMaximization` as an instance of `IterativeParameterLearning` -/
def learner (ch : Choices V) (kl : List (Fl K) → List (Fl K) → Bool) : Learner (ScmEM I L) (Frame V S) (SCM I L) where
  prior := prior
  model := model
  init := init
  update := update ch
  stop := stop kl

end ScmEM

/-! ### `EMCC` -/

namespace Emcc
variable {I : StoreImpl V S (Fl K)} {L : LabelStore V S}

/-- `aggregator.py:76-80` `_single_generate`: the learning object; its model is what is returned.  `draws` are the numbers
that the generator yields. -/
def singleGenerate (ch : Choices V) (kl : List (Fl K) → List (Fl K) → Bool) (m : SCM I L) (tr : List V) (maxIter : Nat)
    (data : Frame V S) (draws : V → List (Fl K)) : Py (LObj (ScmEM I L) (SCM I L)) := do
  let prior ← m.randomizeFactors tr false false draws
  (ScmEM.learner ch kl).runF data maxIter ⟨ScmEM.new prior (some tr), none⟩

/-- One turn of `aggregator.py:53`: the data as the runs before left them (they add columns to the caller's frame,
`expectation_maximization.py:82`) and the objects so far -/
def generateOne (ch : Choices V) (kl : List (Fl K) → List (Fl K) → Bool) (m : SCM I L) (tr : List V) (maxIter : Nat)
    (st : Frame V S × List (LObj (ScmEM I L) (SCM I L))) (draws : V → List (Fl K)) :
    Py (Frame V S × List (LObj (ScmEM I L) (SCM I L))) := do
  let o ← singleGenerate ch kl m tr maxIter st.1 draws
  return (o.core.data, st.2 ++ [o])

/-- `aggregator.py:84-91` constructor of `SimpleModelAggregatorEM` without trainable variables, `:50-53` `generate` without
threads, `:66-68` `run`; one element of `draws` for each model -/
def generate (ch : Choices V) (kl : List (Fl K) → List (Fl K) → Bool) (m : SCM I L) (maxIter : Nat) (data : Frame V S)
    (draws : List (V → List (Fl K))) : Py (Frame V S × List (LObj (ScmEM I L) (SCM I L))) :=
  if draws.length < 1 then .error .valueError
  else draws.foldlM (generateOne ch kl m m.exogenous maxIter) (data, [])

/-- `multi.py:89-93` `compile` of `EMCC`, `:39-44` of `CausalMultiInference`: the inference objects, one for each learnt
model -/
def infer (ch : Choices V) (kl : List (Fl K) → List (Fl K) → Bool) (m : SCM I L) (maxIter : Nat) (data : Frame V S)
    (draws : List (V → List (Fl K))) : Py (List (SCM I L)) := do
  let r ← generate ch kl m maxIter data draws
  (r.2.map fun o => o.core.model).mapM Causal.new

/-- `multi.py:46-48` `query` of an `EMCC` object that is not compiled, for an interventional query -/
def causalQuery (ch : Choices V) (kl : List (Fl K) → List (Fl K) → Bool) (N : BoundNames V S) (J : StoreImpl V S (Fl K)) (flag : Bool)
    (m : SCM I L) (maxIter : Nat) (data : Frame V S) (draws : List (V → List (Fl K))) (target : List V) (doo : Obs V S)
    (ev : Option (Obs V S)) : Py (MultiResult J I) := do
  let infs ← infer ch kl m maxIter data draws
  let rs ← infs.mapM fun i => Causal.causalQuery ch i target doo ev
  processOutput N flag (.factors rs) none

end Emcc

end Verif
