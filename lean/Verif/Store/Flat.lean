import Verif.DomainUtils
import Verif.Store.Numpy

/-!
# `ListStore` (`liststore.py`, `listops.py`) and `Numpy1DStore` (`numpystore.py:52-88`,
`operations.py` GenericOperations)

Both keep a one-dimensional row-major sequence; they differ in the operations.
-/

set_option linter.unusedSectionVars false
set_option linter.unusedSimpArgs false

namespace Verif

/-- `ListStore` / `Numpy1DStore`: domain plus flat row-major values. -/
structure FlatStore (V S α : Type) where
  dom : Dom V S
  data : List α
  deriving DecidableEq, Repr

namespace FlatStore

variable {V S α : Type} [DecidableEq V] [DecidableEq S] [Inhabited α]

/-- Constructor check, `liststore.py:31-33`, `numpystore.py:69-70`. -/
def mk? (dom : Dom V S) (data : List α) : Py (FlatStore V S α) :=
  if data.length = (cards dom).prod then .ok ⟨dom, data⟩ else .error .valueError

/-- `listops.py:68-75` and `numpystore.py:82-88` `restrict` for scalar observations
(`notImplemented` for lists of states is in `restrictG`). -/
def restrict (s : FlatStore V S α) (obs : Obs V S) : Py (FlatStore V S α) := do
  let idx ← indexList s.dom obs
  mk? (s.dom.filter fun p => p.1 ∉ Dict.keys obs) (idx.map fun i => s.data.getD i default)

/-- The scalar observation in a general one, if there is no list in it. -/
def scalarObs (obs : List (V × ObsVal S)) : Option (Obs V S) :=
  obs.mapM fun p => match p.2 with
    | .one s => some (p.1, s)
    | .many _ => none

/-- `restrict` with lists of states raises `NotImplementedError`,
`listops.py:70-71`, `numpystore.py:83-84`. -/
def restrictG (s : FlatStore V S α) (obs : List (V × ObsVal S)) : Py (FlatStore V S α) :=
  match scalarObs obs with
  | some o => s.restrict o
  | none => .error .notImplemented

/-- `liststore.py:42-43`, `numpystore.py:79-80` `get_value`: `restrict(obs).data[0]` -/
def getValue (s : FlatStore V S α) (obs : Obs V S) : Py α := do
  let r ← s.restrict obs
  match r.data with
  | x :: _ => return x
  | [] => throw .indexError

/-- `list(index_iterator(...))[0]` -/
def firstIndex (dom : Dom V S) (obs : Obs V S) : Py Nat := do
  match ← indexList dom obs with
  | i :: _ => return i
  | [] => throw .indexError

/-- `liststore.py:38-40`, `numpystore.py:75-77` `set_value` -/
def setValue (s : FlatStore V S α) (x : α) (obs : Obs V S) : Py (FlatStore V S α) := do
  let i ← firstIndex s.dom obs
  return ⟨s.dom, s.data.set i x⟩

/-- `store.py:150-152` `values_list` -/
def valuesList (s : FlatStore V S α) : Py (List α) :=
  (assignmentSpace s.dom).mapM s.getValue

end FlatStore

namespace ListStore
open FlatStore

variable {V S α : Type} [DecidableEq V] [DecidableEq S] [Inhabited α]

/-- `listops.py:17-33` `marginalize`/`maxmarginalize`: one iterator per joint state of the
removed variables, advanced in lock step. -/
def reduceVars (f : List α → α) (s : FlatStore V S α) (vars : List V) : Py (FlatStore V S α) := do
  let space := assignmentSpace (s.dom.filter fun p => p.1 ∈ vars)
  let newDom := s.dom.filter fun p => p.1 ∉ vars
  let its ← space.mapM fun o => indexList s.dom o
  let newLen := (cards newDom).prod
  mk? newDom ((List.range newLen).map fun i =>
    f (its.map fun it => s.data.getD (it.getD i 0) default))

/-- `listops.py:17-24` `marginalize` -/
def marginalize [AddCommMonoid α] (s : FlatStore V S α) (vars : List V) : Py (FlatStore V S α) :=
  reduceVars List.sum s vars

/-- `listops.py:26-33` `maxmarginalize` -/
def maxmarginalize [LinearOrder α] (s : FlatStore V S α) (vars : List V) :
    Py (FlatStore V S α) :=
  reduceVars NumpyStore.maxOf s vars

/-- `listops.py:36-50` `_generic_combine` -/
def combine (op : α → α → α) (s t : FlatStore V S α) : Py (FlatStore V S α) := do
  let newDom := Dict.merge s.dom t.dom
  let data ← (assignmentSpace newDom).mapM fun o => do
    let i ← firstIndex s.dom o
    let j ← firstIndex t.dom o
    return op (s.data.getD i default) (t.data.getD j default)
  mk? newDom data

end ListStore

namespace Numpy1DStore
open FlatStore

variable {V S α : Type} [DecidableEq V] [DecidableEq S] [Inhabited α]

/-- `operations.py:65-79` `_generic_combine`: a store of zeros filled cell by cell with
`set_value`. -/
def combine [Zero α] (op : α → α → α) (s t : FlatStore V S α) : Py (FlatStore V S α) := do
  let newDom := Dict.merge s.dom t.dom
  let res ← mk? newDom (List.replicate (cards newDom).prod 0)
  (assignmentSpace newDom).foldlM (fun res o => do
    let x ← s.getValue o
    let y ← t.getValue o
    res.setValue (op x y) o) res

/-- `functools.reduce(f, l)`: `TypeError` on an empty list. -/
def reduceM {β : Type} (f : β → β → Py β) : List β → Py β
  | [] => .error .typeError
  | x :: xs => xs.foldlM f x

/-- `operations.py:54-59` `marginalize`: sum of the restrictions to every joint state of
the removed variables. -/
def marginalize [AddCommMonoid α] (s : FlatStore V S α) (vars : List V) : Py (FlatStore V S α) := do
  let space := assignmentSpace (s.dom.filter fun p => p.1 ∈ vars)
  let restricted ← space.mapM fun o => s.restrict o
  reduceM (combine (· + ·)) restricted

/-- `operations.py:61-63` `maxmarginalize` is not implemented. -/
def maxmarginalize (_ : FlatStore V S α) (_ : List V) : Py (FlatStore V S α) :=
  .error .notImplemented

end Numpy1DStore
end Verif
