import Verif.NdArray
import Verif.Spec.Sum

/-!
# `bcause/factors/values/numpystore.py` (NumpyStore) and `numpyops.py`
-/

set_option linter.unusedSectionVars false
set_option linter.unusedSimpArgs false

namespace Verif

/-- The value given to one variable in an observation: a state or a python list of states. -/
inductive ObsVal (S : Type) | one (s : S) | many (l : List S)
  deriving DecidableEq, Repr

/-- A one-element list counts as its element, `numpyops.py:108-109`. -/
def ObsVal.unwrap {S : Type} : ObsVal S → ObsVal S
  | .many [s] => .one s
  | o => o

/-- `NumpyStore`: domain plus n-dimensional array. -/
structure NumpyStore (V S α : Type) where
  dom : Dom V S
  data : NdArray α
  deriving DecidableEq, Repr

namespace NumpyStore

variable {V S α : Type} [DecidableEq V] [DecidableEq S] [Inhabited α]

/-- Constructor with the consistency check, `store.py:20-29`, `numpystore.py:33-36`
(`np.ndim(data) == len(domain)` is implied by the equality of the two lists). -/
def mk? (dom : Dom V S) (data : NdArray α) : Py (NumpyStore V S α) :=
  if data.shape = cards dom then .ok ⟨dom, data⟩ else .error .valueError

/-- `store.py:170-174` `get_var_index` -/
def getVarIndex (s : NumpyStore V S α) (v : V) : Py Nat :=
  if v ∈ Dict.keys s.dom then .ok ((Dict.keys s.dom).idxOf v) else .error .valueError

/-- `numpyops.py:17-21` and `24-28` (`marginalize`, `maxmarginalize`), with `f` the
reduction; numpy refuses a repeated axis with `ValueError`. -/
def reduceVars (f : List α → α) (s : NumpyStore V S α) (vars : List V) : Py (NumpyStore V S α) := do
  let axes ← vars.mapM s.getVarIndex
  if ¬ axes.Nodup then throw .valueError
  mk? (s.dom.filter fun p => p.1 ∉ vars) (s.data.reduceAxes f axes)

/-- `numpyops.py:17-21` `marginalize` -/
def marginalize [AddCommMonoid α] (s : NumpyStore V S α) (vars : List V) : Py (NumpyStore V S α) :=
  s.reduceVars List.sum vars

/-- Largest element of a list, as `np.max` (not used on empty lists: domains have states). -/
def maxOf [LinearOrder α] : List α → α
  | [] => default
  | x :: xs => xs.foldl max x

/-- `numpyops.py:24-28` `maxmarginalize` -/
def maxmarginalize [LinearOrder α] (s : NumpyStore V S α) (vars : List V) :
    Py (NumpyStore V S α) :=
  s.reduceVars maxOf vars

/-- `numpyops.py:72-81` `_extend_domain` -/
def extendDomain (s : NumpyStore V S α) (extra : Dom V S) : Py (NumpyStore V S α) :=
  let extra := extra.filter fun p => p.1 ∉ Dict.keys s.dom
  mk? (Dict.merge s.dom extra) (s.data.repeatReshape (cards extra))

/-- `numpyops.py:55-70` `_reorder` -/
def reorder (s : NumpyStore V S α) (order : List V) : Py (NumpyStore V S α) :=
  if (Dict.keys s.dom).length < 2 then .ok s else do
    let order := order.filter fun v => v ∈ Dict.keys s.dom
    let order := order ++ (Dict.keys s.dom).filter fun v => v ∉ order
    let dest := (Dict.keys s.dom).map fun v => order.idxOf v
    let dom ← order.mapM fun v => do
      let d ← Dict.get s.dom v
      return (v, d)
    mk? dom (s.data.moveaxis dest)

/-- Extension of an operand when needed, `numpyops.py:39-42`. -/
def extendIf (s : NumpyStore V S α) (newDom : Dom V S) : Py (NumpyStore V S α) :=
  if (Dict.keys s.dom).length < newDom.length then s.extendDomain newDom else .ok s

/-- Reordering of an operand when needed, `numpyops.py:45-49`. -/
def reorderIf (s : NumpyStore V S α) (newVars : List V) : Py (NumpyStore V S α) :=
  if Dict.keys s.dom ≠ newVars then s.reorder newVars else .ok s

/-- One operand of `_generic_combine` brought to the common domain, `numpyops.py:39-49`. -/
def align (s : NumpyStore V S α) (newDom : Dom V S) : Py (NumpyStore V S α) := do
  let s ← s.extendIf newDom
  s.reorderIf (Dict.keys newDom)

/-- `numpyops.py:31-51` `_generic_combine` (the class check is a matter of typing here). -/
def combine (op : α → α → α) (s t : NumpyStore V S α) : Py (NumpyStore V S α) := do
  let newDom := Dict.merge s.dom t.dom
  let s ← s.align newDom
  let t ← t.align newDom
  let data ← NdArray.zipWithB op s.data t.data
  mk? newDom data

/-- Loop body of `restrict`, `numpyops.py:105-120`. -/
def restrictItem (obs : List (V × ObsVal S)) (p : V × List S) :
    Py (NdArray.Ix × Option (V × List S)) :=
  match Dict.get? obs p.1 with
  | none => .ok (.all, some p)
  | some o =>
    match o.unwrap with
    | .one s => do
        let i ← stateIdx p.2 s
        return (.int i, none)
    | .many l => do
        let is ← l.mapM (stateIdx p.2)
        return (.arr is, some (p.1, p.2.filter fun x => x ∈ l))

/-- `numpyops.py:101-122` `restrict`, observations being states or lists of states. -/
def restrictG (s : NumpyStore V S α) (obs : List (V × ObsVal S)) : Py (NumpyStore V S α) := do
  let r ← s.dom.mapM (restrictItem obs)
  let data ← s.data.index (r.map Prod.fst)
  mk? (r.filterMap Prod.snd) data

/-- `restrict` with scalar observations only. -/
def restrict (s : NumpyStore V S α) (obs : Obs V S) : Py (NumpyStore V S α) :=
  s.restrictG (obs.map fun p => (p.1, .one p.2))

/-- `numpystore.py:48-49` `get_value`: `np.atleast_1d(restricted.data)[0]`.  With two or
more variables left unobserved python returns a sub-array (`notScalar`). -/
def getValue (s : NumpyStore V S α) (obs : Obs V S) : Py α := do
  let r ← s.restrict obs
  match r.data.shape, r.data.flat with
  | [], x :: _ => return x
  | [_], x :: _ => return x
  | _ :: _ :: _, _ => throw .notScalar
  | _, [] => throw .indexError

/-- `numpystore.py:41-46` `set_value` (every variable of the store must be observed). -/
def setValue (s : NumpyStore V S α) (x : α) (obs : Obs V S) : Py (NumpyStore V S α) := do
  let items ← s.dom.mapM fun p => do
    let o ← Dict.get obs p.1
    stateIdx p.2 o
  return ⟨s.dom, ⟨s.data.shape, s.data.flat.set (ravel s.data.shape items) x⟩⟩

/-- `store.py:150-152` `values_list` -/
def valuesList (s : NumpyStore V S α) : Py (List α) :=
  (assignmentSpace s.dom).mapM s.getValue

end NumpyStore
end Verif
