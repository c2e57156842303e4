import Verif.Inference.MultiCausal
import Verif.Learn.Gradient

/-!
# `GradientLikelihood` objects and the inference object built on them

The object of `learning/parameter/gradient.py` with the methods it inherits from `learning/parameter/parameter.py`, the
aggregator `SimpleModelAggregatorGD` and the inference object `GDCC`.  Only calls that return are followed by other calls: the
state of an object after an exception is not modelled.
-/

set_option linter.unusedSectionVars false
set_option linter.unusedSimpArgs false

namespace Verif

variable {V S K R : Type} [DecidableEq V] [DecidableEq S] [Field K] [LinearOrder K] [Field R] [LinearOrder R]
  {I : StoreImpl V S (Fl K)} {L : LabelStore V S}

/-- A `GradientLikelihood` object.  The constructor (`gradient.py:39-42`) sets the prior, the trainable variables (empty here when
`None`, which is treated in the same way, line 157) and the tolerance, which only scipy sees; `_model`, `_data`, `_max_iter` (`some
none` for infinity) and `_model_evolution` do not exist before they are set. -/
structure GradObj (I : StoreImpl V S (Fl K)) (L : LabelStore V S) where
  prior : SCM I L
  trainable : List V
  model : Option (SCM I L)
  data : Option (Frame V S)
  maxIter : Option (Option Nat)
  evo : Option (List (SCM I L))

namespace GradObj

/-- `gradient.py:39-42` constructor -/
def new (prior : SCM I L) (trainable : Option (List V)) : GradObj I L := ⟨prior, trainable.getD [], none, none, none, none⟩

/-- `gradient.py:161-167`: one turn of the loop over the trainable variables; `is_exogenous` is `cmodel.py:50-51` -/
def checkTrainable (m : SCM I L) (fr : Frame V S) (v : V) : Py Unit :=
  if v ∈ m.endogenous then .error .valueError
  else if v ∉ fr.cols then .error .keyError
  else if fr.rows.any fun r => (Rec.val r v).isSome then .error .valueError
  else .ok ()

/-- `gradient.py:151-170` `_process_data` -/
def processData (o : GradObj I L) (fr : Frame V S) : Py (GradObj I L) := do
  let fr := EM.addMissing o.prior.base.graph.nodes fr
  let tr := if o.trainable = [] then fr.cols.filter fr.hasNa else o.trainable
  let _ ← tr.mapM (checkTrainable o.prior fr)
  return { o with data := some fr, trainable := tr }

/-- `gradient.py:45-47` `initialize`; `copy` is `pgmodel.py:199-200` -/
def start (o : GradObj I L) (fr : Frame V S) : Py (GradObj I L) := do
  let m ← o.prior.copy
  processData { o with model := some m } fr

/-- `gradient.py:56-83` `_updated_factor` of the object: the factor is computed from the prior model, and `_max_iter`
is read after the counts (`gradient.py:80`, `216`).  `opt k` is scipy's `minimize` with at most `k` iterations. -/
def updated (log : K → R) (sub : V → V → Bool) (opt : Option Nat → List (Fl K) → (List K → Py (Fl R)) → List K) (o : GradObj I L)
    (U : V) : Py (Factor I) :=
  match o.data, o.maxIter with
  | none, _ => .error .attributeError
  | some fr, none => do
    let _ ← Gradient.cellsOf o.prior U fr
    .error .attributeError
  | some fr, some k => Gradient.updatedFactor log sub (opt k) o.prior U fr

/-- `gradient.py:53-54`: one entry of the dictionary of `_calculate_updated_factors` -/
def collect (log : K → R) (sub : V → V → Bool) (opt : Option Nat → List (Fl K) → (List K → Py (Fl R)) → List K) (o : GradObj I L)
    (d : List (V × Factor I)) (U : V) : Py (List (V × Factor I)) := do
  let f ← o.updated log sub opt U
  return Dict.set d U f

/-- `parameter.py:24-27` `step()`, `61-65` `_update_model`, `55-58` `_record_model` -/
def step (log : K → R) (sub : V → V → Bool) (opt : Option Nat → List (Fl K) → (List K → Py (Fl R)) → List K) (o : GradObj I L) :
    Py (GradObj I L) := do
  let new ← o.trainable.foldlM (o.collect log sub opt) []
  match o.model with
  | none => .error .attributeError
  | some m => do
    let m' ← ScmEM.updateModel m new
    return { o with model := some m', evo := some (o.evo.getD [o.prior] ++ [m']) }

/-- `gradient.py:247-258` `run` -/
def run (log : K → R) (sub : V → V → Bool) (opt : Option Nat → List (Fl K) → (List K → Py (Fl R)) → List K) (o : GradObj I L)
    (fr : Frame V S) (max : Option Nat) : Py (GradObj I L) := do
  let o ← { o with maxIter := some max }.start fr
  o.step log sub opt

/-- `parameter.py:49-53` `model_evolution` -/
def evolution (o : GradObj I L) : List (SCM I L) := o.evo.getD [o.prior]

end GradObj

namespace Gdcc

/-- `aggregator.py:93-97` `_single_generate`: the learning object; its model is what is returned.  `draws` are the numbers that
the generator yields. -/
def singleGenerate (log : K → R) (sub : V → V → Bool) (opt : Option Nat → List (Fl K) → (List K → Py (Fl R)) → List K) (m : SCM I L)
    (tr : List V) (max : Option Nat) (fr : Frame V S) (draws : V → List (Fl K)) : Py (GradObj I L) := do
  let prior ← m.randomizeFactors tr false false draws
  (GradObj.new prior (some tr)).run log sub opt fr max

/-- One turn of `aggregator.py:53`: the data as the runs before left them (they add columns to the caller's frame,
`gradient.py:154`) and the objects so far -/
def generateOne (log : K → R) (sub : V → V → Bool) (opt : Option Nat → List (Fl K) → (List K → Py (Fl R)) → List K) (m : SCM I L)
    (tr : List V) (max : Option Nat) (st : Frame V S × List (GradObj I L)) (draws : V → List (Fl K)) :
    Py (Frame V S × List (GradObj I L)) := do
  let o ← singleGenerate log sub opt m tr max st.1 draws
  return (o.data.getD st.1, st.2 ++ [o])

/-- `aggregator.py:102-109` constructor of `SimpleModelAggregatorGD` without trainable variables, `:50-53` `generate` without
threads, `:66-68` `run`; one element of `draws` for each model -/
def generate (log : K → R) (sub : V → V → Bool) (opt : Option Nat → List (Fl K) → (List K → Py (Fl R)) → List K) (m : SCM I L)
    (max : Option Nat) (fr : Frame V S) (draws : List (V → List (Fl K))) : Py (Frame V S × List (GradObj I L)) :=
  if draws.length < 1 then .error .valueError
  else draws.foldlM (generateOne log sub opt m m.exogenous max) (fr, [])

/-- `multi.py:116-120` `compile` of a new `GDCC` object -/
def compileObj (log : K → R) (sub : V → V → Bool) (opt : Option Nat → List (Fl K) → (List K → Py (Fl R)) → List K) (m : SCM I L)
    (max : Option Nat) (fr : Frame V S) (draws : List (V → List (Fl K))) (flag : Bool) : Py (MultiObj I L) := do
  let r ← generate log sub opt m max fr draws
  ((MultiObj.new [] flag).setModels (r.2.filterMap fun o => o.model)).compile

end Gdcc
end Verif
