import Verif.DomainUtils
import Verif.Store.Flat

/-!
# `TreeDictStore` (`treedictstore.py`, `treedictops.py`, `util/treesutil.py`)

A python value of the store is either a number or a dict `{"var": v, "children": {state: value}}`.
Children are kept in insertion order.
-/

set_option linter.unusedSectionVars false
set_option linter.unusedSimpArgs false

namespace Verif

mutual
/-- `util/treesutil.py:20-21` `treeNode(var, children)`, or a leaf value. -/
inductive Tree (V S α : Type)
  | leaf (x : α)
  | node (v : V) (ch : Forest V S α)
/-- The `children` dict of a node. -/
inductive Forest (V S α : Type)
  | nil
  | cons (s : S) (t : Tree V S α) (rest : Forest V S α)
end

variable {V S α : Type} [DecidableEq V] [DecidableEq S]

/-- `children.keys()` -/
def Forest.keys : Forest V S α → List S
  | .nil => []
  | .cons s _ f => s :: f.keys

/-- `children.get(s)` -/
def Forest.get? : Forest V S α → S → Option (Tree V S α)
  | .nil, _ => none
  | .cons s' t f, s => if s' = s then some t else f.get? s

/-- `children.values()` -/
def Forest.values : Forest V S α → List (Tree V S α)
  | .nil => []
  | .cons _ t f => t :: f.values

/-- A dict from (state, subtree) pairs; state lists are assumed without repetition
(python would keep the last one). -/
def Forest.ofList : List (S × Tree V S α) → Forest V S α
  | [] => .nil
  | p :: l => .cons p.1 p.2 (Forest.ofList l)

mutual
/-- `treedictops.py:49-62` `_restrict_dict` -/
def Tree.restrict (obs : Obs V S) : Tree V S α → Py (Tree V S α)
  | .leaf x => .ok (.leaf x)
  | .node v ch =>
    if obs.length = 0 then .ok (.node v ch)
    else match Dict.get? obs v with
      | none => do
          let ch' ← Forest.restrictAll obs ch
          return .node v ch'
      | some s => Forest.restrictAt (obs.filter fun p => p.1 ≠ v) s ch
/-- restriction of every child, `treedictops.py:53-58` -/
def Forest.restrictAll (obs : Obs V S) : Forest V S α → Py (Forest V S α)
  | .nil => .ok .nil
  | .cons s t f => do
      let t' ← Tree.restrict obs t
      let f' ← Forest.restrictAll obs f
      return .cons s t' f'
/-- restriction of the child with key `s` (`KeyError` when missing), `treedictops.py:60-61` -/
def Forest.restrictAt (obs : Obs V S) (s : S) : Forest V S α → Py (Tree V S α)
  | .nil => .error .keyError
  | .cons s' t f => if s' = s then Tree.restrict obs t else Forest.restrictAt obs s f
end

mutual
/-- `treedictops.py:33-39`, `_combine_dict` when the first operand is a leaf -/
def Tree.combLeaf (op : α → α → α) (x : α) : Tree V S α → Tree V S α
  | .leaf y => .leaf (op x y)
  | .node v ch => .node v (Forest.combLeaf op x ch)
def Forest.combLeaf (op : α → α → α) (x : α) : Forest V S α → Forest V S α
  | .nil => .nil
  | .cons s t f => .cons s (Tree.combLeaf op x t) (Forest.combLeaf op x f)
end

mutual
/-- `treedictops.py:31-47` `_combine_dict` -/
def Tree.combine (op : α → α → α) : Tree V S α → Tree V S α → Py (Tree V S α)
  | .leaf x, d2 => .ok (Tree.combLeaf op x d2)
  | .node v ch, d2 => do
      let ch' ← Forest.combine op v ch d2
      return .node v ch'
def Forest.combine (op : α → α → α) (v : V) : Forest V S α → Tree V S α → Py (Forest V S α)
  | .nil, _ => .ok .nil
  | .cons s t f, d2 => do
      let d2' ← Tree.restrict [(v, s)] d2
      let t' ← Tree.combine op t d2'
      let f' ← Forest.combine op v f d2
      return .cons s t' f'
end

mutual
/-- `treedictops.py:64-79` `_marginalize_dict`; `scale x` is `d * k` for a leaf. -/
def Tree.marg (op : α → α → α) (scale : α → α) (v : V) : Tree V S α → Py (Tree V S α)
  | .leaf x => .ok (.leaf (scale x))
  | .node w ch =>
    if w = v then Numpy1DStore.reduceM (Tree.combine op) ch.values
    else do
      let ch' ← Forest.marg op scale v ch
      return .node w ch'
def Forest.marg (op : α → α → α) (scale : α → α) (v : V) : Forest V S α → Py (Forest V S α)
  | .nil => .ok .nil
  | .cons s t f => do
      let t' ← Tree.marg op scale v t
      let f' ← Forest.marg op scale v f
      return .cons s t' f'
end

mutual
/-- `treedictstore.py:43-57` `modify_dict` -/
def Tree.modify (obs : Obs V S) (x : α) : Tree V S α → Py (Tree V S α)
  | .leaf _ => .ok (.leaf x)
  | .node v ch =>
    if obs.length = 0 then .ok (.leaf x)
    else match Dict.get? obs v with
      | none => do
          let ch' ← Forest.modifyAll obs x ch
          return .node v ch'
      | some s => do
          let ch' ← Forest.modifyAt (obs.filter fun p => p.1 ≠ v) x s ch
          return .node v ch'
def Forest.modifyAll (obs : Obs V S) (x : α) : Forest V S α → Py (Forest V S α)
  | .nil => .ok .nil
  | .cons s t f => do
      let t' ← Tree.modify obs x t
      let f' ← Forest.modifyAll obs x f
      return .cons s t' f'
def Forest.modifyAt (obs : Obs V S) (x : α) (s : S) : Forest V S α → Py (Forest V S α)
  | .nil => .error .keyError
  | .cons s' t f =>
    if s' = s then do
      let t' ← Tree.modify obs x t
      return .cons s' t' f
    else do
      let f' ← Forest.modifyAt obs x s f
      return .cons s' t f'
end

/-- `util/treesutil.py:23-40` `build_default_tree` (called for non-empty domains; data
given flat).  No length check: missing data produce missing children. -/
def buildDefaultTree [Inhabited α] : Dom V S → List α → Tree V S α
  | [], data => .leaf (data.getD 0 default)
  | [p], data => .node p.1 (.ofList ((p.2.zip data).map fun q => (q.1, .leaf q.2)))
  | p :: d, data =>
      let size := (cards d).prod
      .node p.1 (.ofList ((p.2.zip (List.range p.2.length)).map fun q =>
        (q.1, buildDefaultTree d ((data.drop (q.2 * size)).take size))))

/-- `TreeDictStore` -/
structure TreeStore (V S α : Type) where
  dom : Dom V S
  data : Tree V S α

namespace TreeStore

/-- Constructor from flat values, `treedictstore.py:21-33`: no consistency check; with an
empty domain the data is kept as given (a scalar). -/
def ofFlat [Inhabited α] (dom : Dom V S) (data : List α) : TreeStore V S α :=
  ⟨dom, buildDefaultTree dom data⟩

/-- The constructor called by the operations, `treedictstore.py:25-27`: a dict is kept; a
number with a non-empty domain goes through `build_default_tree`, which produces a single
child for one variable and fails (`IndexError`, slicing a numpy scalar) for more. -/
def build (dom : Dom V S) (t : Tree V S α) : Py (TreeStore V S α) :=
  match t, dom with
  | .leaf x, [(v, s :: _)] => .ok ⟨dom, .node v (.cons s (.leaf x) .nil)⟩
  | .leaf _, [(v, [])] => .ok ⟨dom, .node v .nil⟩
  | .leaf _, _ :: _ :: _ => .error .indexError
  | t, _ => .ok ⟨dom, t⟩

/-- `treedictops.py:108-114` `restrict` (scalar observations) -/
def restrict (s : TreeStore V S α) (obs : Obs V S) : Py (TreeStore V S α) := do
  let t ← s.data.restrict obs
  build (s.dom.filter fun p => p.1 ∉ Dict.keys obs) t

/-- `restrict` with lists of states raises `NotImplementedError`, `treedictops.py:110-111`. -/
def restrictG (s : TreeStore V S α) (obs : List (V × ObsVal S)) : Py (TreeStore V S α) :=
  match FlatStore.scalarObs obs with
  | some o => s.restrict o
  | none => .error .notImplemented

/-- `treedictstore.py:62-63` `get_value`: with unobserved variables left python returns a
dict (`notScalar`). -/
def getValue (s : TreeStore V S α) (obs : Obs V S) : Py α := do
  let r ← s.restrict obs
  match r.data with
  | .leaf x => return x
  | .node _ _ => throw .notScalar

/-- `treedictstore.py:42-60` `set_value` (the in-place update is modelled by the new tree;
sharing is studied separately) -/
def setValue (s : TreeStore V S α) (x : α) (obs : Obs V S) : Py (TreeStore V S α) := do
  let t ← s.data.modify (obs.filter fun p => p.1 ∈ Dict.keys s.dom) x
  return ⟨s.dom, t⟩

/-- `treedictops.py:81-89` `_generic_combine` -/
def combine (op : α → α → α) (s t : TreeStore V S α) : Py (TreeStore V S α) := do
  let d ← Tree.combine op s.data t.data
  build (Dict.merge s.dom t.dom) d

/-- `treedictops.py:16-22` `marginalize` (`d * k` for leaves; `store.domain[v]` raises
`KeyError` for a variable that is not in the store) -/
def marginalize [AddCommMonoid α] (s : TreeStore V S α) (vars : List V) :
    Py (TreeStore V S α) := do
  let d ← vars.foldlM (fun t v => do
    let st ← Dict.get s.dom v
    Tree.marg (· + ·) (fun x => st.length • x) v t) s.data
  build (s.dom.filter fun p => p.1 ∉ vars) d

/-- `treedictops.py:24-30` `maxmarginalize` (`d * 1` for leaves) -/
def maxmarginalize [LinearOrder α] (s : TreeStore V S α) (vars : List V) :
    Py (TreeStore V S α) := do
  let d ← vars.foldlM (fun t v => Tree.marg max (fun x => x) v t) s.data
  build (s.dom.filter fun p => p.1 ∉ vars) d

/-- `store.py:150-152` `values_list` -/
def valuesList (s : TreeStore V S α) : Py (List α) :=
  (assignmentSpace s.dom).mapM s.getValue

end TreeStore
end Verif
