import Verif.Inference.Causal
import Verif.Learn.EMScm

/-!
# Queries to several models (`inference/causal/multi.py`, with the methods inherited from `inference/causal/causal.py`)

`Verif.Learn.Multi` follows the lists of models of such objects; here the queries are answered.  Only calls that return are
followed by other calls: the state of an object after an exception is not modelled.  `J` is the store of interval factors.
-/

set_option linter.unusedSectionVars false
set_option linter.unusedSimpArgs false

namespace Verif

variable {V S K : Type} [DecidableEq V] [DecidableEq S] [Field K] [LinearOrder K]
  {I J : StoreImpl V S (Fl K)} {L : LabelStore V S}

/-- A `CausalMultiInference` object: `_models`, `_causal_inf`, `_model`, `_compiled`, `_interval_result`.  The attribute `_model`
is not set by the constructor (`multi.py:16-23` does not call the one of `CausalInference`). -/
structure MultiObj (I : StoreImpl V S (Fl K)) (L : LabelStore V S) where
  models : List (SCM I L)
  infs : List (SCM I L)
  model : Option (SCM I L)
  compiled : Bool
  flag : Bool

namespace MultiObj

/-- `multi.py:16-23` constructor -/
def new (ms : List (SCM I L)) (flag : Bool) : MultiObj I L := ⟨ms, [], none, false, flag⟩

/-- `multi.py:30-32` `set_models` -/
def setModels (o : MultiObj I L) (ms : List (SCM I L)) : MultiObj I L := { o with models := ms, compiled := false }

/-- `multi.py:34-37` `add_models` -/
def addModels (o : MultiObj I L) (ms : List (SCM I L)) : MultiObj I L := { o with models := o.models ++ ms, compiled := false }

/-- `multi.py:68-69` `set_interval_result` -/
def setInterval (o : MultiObj I L) (b : Bool) : MultiObj I L := { o with flag := b }

/-- `multi.py:39-44` `compile` -/
def compile (o : MultiObj I L) : Py (MultiObj I L) :=
  if o.models.length < 1 then .error .valueError else do
    let infs ← o.models.mapM Causal.new
    return { o with infs := infs, model := o.models.head?, compiled := true }

/-- `multi.py:47`: compilation before the first query -/
def ready (o : MultiObj I L) : Py (MultiObj I L) := if o.compiled then .ok o else o.compile

/-- `multi.py:46-48` `query`; `q` is the query that is put to each of the inference objects -/
def query (N : BoundNames V S) (J : StoreImpl V S (Fl K)) (o : MultiObj I L) (q : SCM I L → Py (Factor I)) :
    Py (MultiObj I L × MultiResult J I) := do
  let o ← o.ready
  let rs ← o.infs.mapM q
  let r ← processOutput N o.flag (.factors rs) none
  return (o, r)

/-- `causal.py:95-96`, `112-113`, `126-127`: the given true and false states, or `identify_true_false` (`tf`) of those in the
model, which is the first of the models at the time of the last compilation -/
def trueFalse (tf : V → List S → Py (S × S)) (o : MultiObj I L) (v : V) : Option (S × S) → Py (S × S)
  | some p => .ok p
  | none =>
    match o.model with
    | none => .error .attributeError
    | some m =>
      match Dict.get? m.base.domains v with
      | none => .error .keyError
      | some none => .error .typeError
      | some (some st) => tf v st

/-- `causal.py:98-103`, `115-120`, `129-134`: the query, whose answer is read at `obs` (`multi.py:50-66`) -/
def queryAt (N : BoundNames V S) (J : StoreImpl V S (Fl K)) (o : MultiObj I L) (q : SCM I L → Py (Factor I)) (obs : Obs V S) :
    Py (MultiObj I L × MultiResult J I) := do
  let r ← o.query N J q
  let x ← processOutput N r.1.flag r.2 (some obs)
  return (r.1, x)

/-- `causal.py:93-103` `prob_necessity_sufficiency` -/
def pns (N : BoundNames V S) (J : StoreImpl V S (Fl K)) (sfx : V → Nat → V) (ch : Choices V) (tf : V → List S → Py (S × S))
    (o : MultiObj I L) (cause effect : V) (gc ge : Option (S × S)) : Py (MultiObj I L × MultiResult J I) := do
  let c ← o.trueFalse tf cause gc
  let e ← o.trueFalse tf effect ge
  o.queryAt N J (fun i => Causal.counterfactualQuery sfx ch i [effect, effect] [[(cause, c.2)], [(cause, c.1)]] none (some [1, 2]))
    [(sfx effect 1, e.2), (sfx effect 2, e.1)]

/-- `causal.py:108-120` `prob_necessity` -/
def pn (N : BoundNames V S) (J : StoreImpl V S (Fl K)) (sfx : V → Nat → V) (ch : Choices V) (tf : V → List S → Py (S × S))
    (o : MultiObj I L) (cause effect : V) (gc ge : Option (S × S)) : Py (MultiObj I L × MultiResult J I) := do
  let c ← o.trueFalse tf cause gc
  let e ← o.trueFalse tf effect ge
  o.queryAt N J (fun i => Causal.counterfactualQuery sfx ch i [effect] [[(cause, c.2)]] (some [(cause, c.1), (effect, e.1)]) none)
    [(sfx effect 1, e.2)]

/-- `causal.py:122-134` `prob_sufficiency` -/
def ps (N : BoundNames V S) (J : StoreImpl V S (Fl K)) (sfx : V → Nat → V) (ch : Choices V) (tf : V → List S → Py (S × S))
    (o : MultiObj I L) (cause effect : V) (gc ge : Option (S × S)) : Py (MultiObj I L × MultiResult J I) := do
  let c ← o.trueFalse tf cause gc
  let e ← o.trueFalse tf effect ge
  o.queryAt N J (fun i => Causal.counterfactualQuery sfx ch i [effect] [[(cause, c.1)]] (some [(cause, c.2), (effect, e.2)]) none)
    [(sfx effect 1, e.1)]

end MultiObj

namespace Emcc

/-- `multi.py:89-93` `compile` of a new `EMCC` object -/
def compileObj (ch : Choices V) (kl : List (Fl K) → List (Fl K) → Bool) (m : SCM I L) (maxIter : Nat) (data : Frame V S)
    (draws : List (V → List (Fl K))) (flag : Bool) : Py (MultiObj I L) := do
  let r ← generate ch kl m maxIter data draws
  ((MultiObj.new [] flag).setModels (r.2.map fun o => o.core.model)).compile

end Emcc

end Verif
