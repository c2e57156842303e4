import Verif.Inference.Causal
import Verif.Learn.Data
import Verif.Graph.Basic

/-!
# Names and containers of names as arguments (`util/arrayutils.py:28-35`)

Queries and the functions on graphs take one name or a container of names, and turn both into a list with `as_lists`.
-/

set_option linter.unusedSectionVars false
set_option linter.unusedSimpArgs false

namespace Verif

variable {V S K : Type} [DecidableEq V] [DecidableEq S] [Field K] [LinearOrder K]

/-- What python makes of the objects that name variables: whether the object is a `str`, and `list(name)` for one that is
not (`none` if it is not iterable, as an `int` is not; the entries of a tuple). -/
structure NameKind (V : Type) where
  isStr : V → Bool
  elems : V → Option (List V)

/-- An argument: an object that can name a variable, or a list, a set or the keys of a dictionary.  Containers that are not
hashable name no variable. -/
inductive Arg (V : Type)
  | one (v : V)
  | many (vs : List V)

/-- What `as_lists` returns: a list for one argument, a list of lists for several. -/
inductive Listed (V : Type)
  | single (l : List V)
  | several (ls : List (List V))
  deriving DecidableEq

/-- `arrayutils.py:29-31` `as_list` -/
def asList (N : NameKind V) : Arg V → Py (List V)
  | .many vs => .ok vs
  | .one v => if N.isStr v then .ok [v] else
      match N.elems v with
      | some vs => .ok vs
      | none => .error .typeError

/-- `arrayutils.py:28-35` `as_lists` -/
def asLists (N : NameKind V) (args : List (Arg V)) : Py (Listed V) :=
  if args.length > 1 then do
    let ls ← args.mapM (asList N)
    return .several ls
  else
    match args with
    | [] => .error .indexError
    | a :: _ => do
      let l ← asList N a
      return .single l

/-- `probabilistic.py:38-54` `query` of a `VariableElimination` object.  An object that is not accepted is refused at line 20
or 45, before anything is stored. -/
def VEObj.queryArg {F : Type} {I : StoreImpl V S (Fl K)} [VEFactor F I] (N : NameKind V) (ch : Choices V) (o : VEObj F I)
    (target : Arg V) (conditioning : Option (Arg V)) (ev : Option (Obs V S)) : VEObj F I × Py (Factor I) :=
  match conditioning with
  | none =>
    match asLists N [target] with
    | .ok (.single t) => o.query ch t ev
    | .ok (.several _) => (o, .error .valueError)
    | .error e => (o, .error e)
  | some c =>
    match asLists N [target, c] with
    | .ok (.several [t, c]) => o.queryCond ch t c ev
    | .ok _ => (o, .error .valueError)
    | .error e => (o, .error e)

/-- `probabilistic.py:38-54` `query` of a `LaplaceInference` object (`datainference.py:19-34`) -/
def Laplace.queryArg (M : NameKind V) (N : NanName S) (I : StoreImpl V S (Fl K)) (setOrd : List V → List V) (o : Laplace V S)
    (target : Arg V) (conditioning : Option (Arg V)) (ev : Obs V S) : Py (Factor I) := do
  match conditioning with
  | none =>
    match ← asLists M [target] with
    | .single t => o.query N I t ev
    | .several _ => .error .valueError
  | some c =>
    match ← asLists M [target, c] with
    | .several [t, c] => o.queryCond N I setOrd t c ev
    | _ => .error .valueError

namespace Causal

variable {I : StoreImpl V S (Fl K)} {L : LabelStore V S}

/-- `causal.py:87-88` `causal_query`; the target becomes a list at line 22. -/
def causalQueryArg (N : NameKind V) (ch : Choices V) (m : SCM I L) (target : Arg V) (doo : Obs V S) (ev : Option (Obs V S)) :
    Py (Factor I) := do
  match ← asLists N [target] with
  | .single t => causalQuery ch m t doo ev
  | .several _ => .error .valueError

/-- An intervention: one dictionary or a list of them (`causal.py:35`, `58`) -/
inductive DoArg (V S : Type)
  | one (d : Obs V S)
  | many (ds : List (Obs V S))

/-- `causal.py:35` -/
def DoArg.toList : DoArg V S → List (Obs V S)
  | .one d => [d]
  | .many ds => ds

/-- `causal.py:90-91` `counterfactual_query`; the target becomes a list at line 82. -/
def counterfactualQueryArg (sfx : V → Nat → V) (N : NameKind V) (ch : Choices V) (m : SCM I L) (target : Arg V)
    (doo : DoArg V S) (ev : Option (Obs V S)) (subs : Option (List Nat)) : Py (Factor I) := do
  match ← asLists N [target] with
  | .single t => counterfactualQuery sfx ch m t doo.toList ev subs
  | .several _ => .error .valueError

end Causal

namespace DiGraph

/-- `graphutils.py:57-64` `dsep_nodes` -/
def dsepNodesArg (N : NameKind V) (g : DiGraph V) (target evidence : Arg V) : Py (List V) := do
  match ← asLists N [target, evidence] with
  | .several [t, e] => return g.dsepNodes t e
  | _ => .error .valueError

/-- `graphutils.py:66-67` `dcon_nodes`: the target is put into a set, `{target}`, which a list, a set or the keys of a
dictionary cannot be. -/
def dconNodesArg (N : NameKind V) (g : DiGraph V) (target evidence : Arg V) : Py (List V) := do
  let sep ← g.dsepNodesArg N target evidence
  match target with
  | .one v => return g.nodes.filter fun x => x ∉ sep ∧ x ≠ v
  | .many _ => .error .typeError

/-- `graphutils.py:94-97` `connected` -/
def connectedArg (N : NameKind V) (g : DiGraph V) (target : Arg V) (y : V) : Py Bool := do
  match ← asLists N [target] with
  | .single t => return g.connected t y
  | .several _ => .error .valueError

end DiGraph
end Verif
