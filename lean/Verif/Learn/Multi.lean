import Verif.Py.Basic

/-!
# Inference with several models and repeated learning (`inference/causal/multi.py`, `learning/aggregator/aggregator.py`)

What the objects do with their lists of models; the models themselves are an arbitrary type.
-/

set_option linter.unusedSectionVars false
set_option linter.unusedSimpArgs false

namespace Verif

variable {M : Type}

/-! ### `CausalMultiInference` -/

/-- A `CausalMultiInference` object.  `models` is the address of the python list `_models`; `infs` are the models for
which inference objects have been built (`_causal_inf`). -/
structure MultiInf (M : Type) where
  models : Nat
  infs : List M
  compiled : Bool
  deriving DecidableEq, Repr

/-- The python lists, by address, and the objects. -/
structure MultiWorld (M : Type) where
  lists : List (List M)
  objs : List (MultiInf M)
  deriving DecidableEq, Repr

namespace MultiWorld

/-- Contents of the list at an address -/
def list (w : MultiWorld M) (a : Nat) : List M := w.lists.getD a []

/-- `models or []`: the list itself, or a new empty one when it is `None` or empty -/
def orNew (w : MultiWorld M) : Option Nat → MultiWorld M × Nat
  | some a => if w.list a = [] then ({ w with lists := w.lists ++ [[]] }, w.lists.length) else (w, a)
  | none => ({ w with lists := w.lists ++ [[]] }, w.lists.length)

/-- A list made by the caller -/
def newList (w : MultiWorld M) (ms : List M) : MultiWorld M := { w with lists := w.lists ++ [ms] }

/-- `l += ms`, by the caller or by a method -/
def extend (w : MultiWorld M) (a : Nat) (ms : List M) : MultiWorld M := { w with lists := w.lists.set a (w.list a ++ ms) }

/-- Update of object `i` -/
def upd (w : MultiWorld M) (i : Nat) (o : MultiInf M) : MultiWorld M := { w with objs := w.objs.set i o }

/-- `multi.py:16-23` constructor -/
def new (w : MultiWorld M) (arg : Option Nat) : MultiWorld M :=
  let (w, a) := w.orNew arg
  let (w, a) := w.orNew (some a)
  { w with objs := w.objs ++ [⟨a, [], false⟩] }

/-- `multi.py:30-32` `set_models` -/
def setModels (w : MultiWorld M) (i : Nat) (arg : Option Nat) : MultiWorld M :=
  match w.objs[i]? with
  | none => w
  | some o =>
    let (w, a) := w.orNew arg
    w.upd i { o with models := a, compiled := false }

/-- `multi.py:34-37` `add_models`: `self._models += models` changes the list in place -/
def addModels (w : MultiWorld M) (i : Nat) (arg : Option Nat) : MultiWorld M :=
  match w.objs[i]? with
  | none => w
  | some o =>
    let (w, a) := w.orNew arg
    (w.extend o.models (w.list a)).upd i { o with compiled := false }

/-- `multi.py:39-44` `compile` -/
def compile (w : MultiWorld M) (i : Nat) : Py (MultiWorld M) :=
  match w.objs[i]? with
  | none => .error .keyError
  | some o =>
    if (w.list o.models).length < 1 then .error .valueError
    else .ok (w.upd i { o with infs := w.list o.models, compiled := true })

/-- `multi.py:46-48` `query`: the models that answer it -/
def query (w : MultiWorld M) (i : Nat) : Py (MultiWorld M × List M) :=
  match w.objs[i]? with
  | none => .error .keyError
  | some o =>
    if o.compiled then .ok (w, o.infs) else do
      let w ← w.compile i
      match w.objs[i]? with
      | none => throw .keyError
      | some o => return (w, o.infs)

end MultiWorld

/-! ### `EMCC` -/

/-- An `EMCC` object.  `learn k` is the model that the `k`-th learning run since the beginning produces; `runs` counts
them.  The lists are not shared here. -/
structure Emcc (M : Type) where
  numRuns : Nat
  runs : Nat
  models : List M
  infs : List M
  compiled : Bool
  deriving DecidableEq, Repr

namespace Emcc

variable (learn : Nat → M)

/-- `multi.py:80-87` constructor -/
def new (numRuns : Nat) : Emcc M := ⟨numRuns, 0, [], [], false⟩

/-- `aggregator.py:50-68` `run(num_models)` of a new aggregator -/
def learnModels (s : Emcc M) (n : Nat) : Py (Emcc M × List M) :=
  if n < 1 then .error .valueError
  else .ok ({ s with runs := s.runs + n }, (List.range n).map fun k => learn (s.runs + k))

/-- `multi.py:39-44` the inherited `compile` -/
def superCompile (s : Emcc M) : Py (Emcc M) :=
  if s.models.length < 1 then .error .valueError else .ok { s with infs := s.models, compiled := true }

/-- `multi.py:30-32` `set_models` -/
def setModels (s : Emcc M) (ms : List M) : Emcc M := { s with models := ms, compiled := false }

/-- `multi.py:34-37` `add_models` -/
def addModels (s : Emcc M) (ms : List M) : Emcc M := { s with models := s.models ++ ms, compiled := false }

/-- `multi.py:89-93` `compile` -/
def compile (s : Emcc M) : Py (Emcc M) := do
  let (s, ms) ← s.learnModels learn s.numRuns
  (s.setModels ms).superCompile

/-- `multi.py:46-48` `query`: the models that answer it -/
def query (s : Emcc M) : Py (Emcc M × List M) :=
  if s.compiled then .ok (s, s.infs) else do
    let s ← s.compile learn
    return (s, s.infs)

/-- `multi.py:96-102` `compile_incremental`: the object at the next `yield`, `none` when the generator ends -/
def incrNext (step : Nat) (s : Emcc M) : Py (Option (Emcc M)) :=
  if s.models.length < s.numRuns then do
    let (s, ms) ← s.learnModels learn step
    let s ← (s.addModels ms).superCompile
    return some s
  else .ok none

/-- The object at each `yield` of `compile_incremental`; every step adds a model, so `numRuns` rounds are enough. -/
def incrLoop (step : Nat) : Nat → Emcc M → Py (List (Emcc M))
  | 0, _ => .ok []
  | n + 1, s => do
    match ← s.incrNext learn step with
    | none => return []
    | some s' =>
      let rest ← incrLoop step n s'
      return s' :: rest

/-- `list(compile_incremental(step))` -/
def incremental (step : Nat) (s : Emcc M) : Py (List (Emcc M)) := incrLoop learn step (s.numRuns + 1) s

end Emcc

/-! ### `ModelAggregator` -/

/-- A `SimpleModelAggregator`; a learning object of type `R` holds the model `model r`. -/
structure Aggregator (M R : Type) where
  /-- `_generated_models`, which is also `_final_models` after `merge` -/
  models : List M
  /-- `_learn_objects` -/
  objects : List R
  deriving DecidableEq, Repr

namespace Aggregator

variable {R : Type} (model : R → M)

/-- `aggregator.py:38-41` `reset` -/
def reset : Aggregator M R := ⟨[], []⟩

/-- `aggregator.py:50-53`, `75-80` and `66-68` `run` without threads: `rs` are the learning objects of the calls
`_single_generate(0)`, `_single_generate(1)`, … -/
def runSeq (s : Aggregator M R) (rs : List R) : Py (Aggregator M R) :=
  if rs.length < 1 then .error .valueError
  else .ok (rs.foldl (fun s r => ⟨s.models ++ [model r], s.objects ++ [r]⟩) s)

/-- `aggregator.py:54-56` and `66-68`, a run with threads.  Every thread appends its learning object when it is done (appending to a
list is atomic); `order` says in which order they do.  joblib returns the results in the order of the calls. -/
def runPar (s : Aggregator M R) (rs : List R) (order : List Nat) : Py (Aggregator M R) :=
  if rs.length < 1 then .error .valueError
  else .ok ⟨s.models ++ rs.map model, s.objects ++ order.filterMap fun i => rs[i]?⟩

/-- `multi.py:122-124` `get_model_evolution` of `GDCC`: the learning object at an index -/
def objectAt (s : Aggregator M R) (i : Nat) : Py R :=
  match s.objects[i]? with
  | some r => .ok r
  | none => .error .indexError

end Aggregator
end Verif
