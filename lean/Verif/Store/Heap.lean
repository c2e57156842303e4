import Verif.Store.Class

/-!
# Stores as python objects: which data are shared and which are copied

The other models treat a store as a value.  Here a store is an object that refers to its data,
and `set_value` changes the data where they are.

* `TreeHeap`: the nodes of `TreeDictStore` live in a heap; `_restrict_dict` may return a node of
  the tree it was given (`treedictops.py:49-62`), `modify_dict` writes into the nodes on its path
  and makes new ones elsewhere (`treedictstore.py:42-59`).  A node and its `children` dict are one
  cell: no code hands out a `children` dict without its node.
* `ArrHeap`: the other three stores keep one array (or list) each.

The recursion of the tree functions is bounded by `fuel`, python's recursion limit.
-/

set_option linter.unusedSectionVars false
set_option linter.unusedSimpArgs false

namespace Verif

/-- A python value in a tree: a number, or a reference to a node. -/
inductive Ref (α : Type)
  | val (x : α)
  | ptr (a : Nat)
  deriving DecidableEq, Repr

/-- `util/treesutil.py:20-21` a node: its variable and its children -/
abbrev Cell (V S α : Type) := V × List (S × Ref α)

/-- The nodes made so far; the address of a node is its position. -/
abbrev TreeHeap (V S α : Type) := List (Cell V S α)

variable {V S α : Type} [DecidableEq V] [DecidableEq S]

namespace TreeHeap

/-- The loop over the children of a node (`treedictops.py:54-57`, `treedictstore.py:47-49`) -/
def children (f : TreeHeap V S α → Ref α → Py (TreeHeap V S α × Ref α)) :
    TreeHeap V S α → List (S × Ref α) → Py (TreeHeap V S α × List (S × Ref α))
  | h, [] => .ok (h, [])
  | h, p :: ch => do
      let q ← f h p.2
      let w ← children f q.1 ch
      return (w.1, (p.1, q.2) :: w.2)

/-- `treedictops.py:49-62` `_restrict_dict`: no node is changed; a node is returned as it is when
nothing is observed, and the child of an observed node is followed without copying it. -/
def restrict : Nat → Obs V S → TreeHeap V S α → Ref α → Py (TreeHeap V S α × Ref α)
  | _, _, h, .val x => .ok (h, .val x)
  | 0, _, _, .ptr _ => .error .recursion
  | n + 1, obs, h, .ptr a =>
    match h[a]? with
    | none => .error .attributeError
    | some c =>
      if obs.length = 0 then .ok (h, .ptr a)
      else match Dict.get? obs c.1 with
        | none => do
            let w ← children (restrict n obs) h c.2
            return (w.1 ++ [(c.1, w.2)], .ptr w.1.length)
        | some s => match Dict.get? c.2 s with
          | none => .error .keyError
          | some r => restrict n (obs.filter fun p => p.1 ≠ c.1) h r

/-- `data["children"][s] = r` for a key that is there -/
def setChild (s : S) (r : Ref α) : List (S × Ref α) → List (S × Ref α)
  | [] => []
  | p :: ch => if p.1 = s then (p.1, r) :: ch else p :: setChild s r ch

/-- The node at address `a` gets `r` as its child for `s` (`treedictstore.py:55`). -/
def store (h : TreeHeap V S α) (a : Nat) (s : S) (r : Ref α) : TreeHeap V S α :=
  h.modify a fun c => (c.1, setChild s r c.2)

/-- `treedictstore.py:43-57` `modify_dict`: where the variable is observed the node itself is
changed, elsewhere a new one is made. -/
def modify (x : α) : Nat → Obs V S → TreeHeap V S α → Ref α → Py (TreeHeap V S α × Ref α)
  | _, _, h, .val _ => .ok (h, .val x)
  | 0, _, _, .ptr _ => .error .recursion
  | n + 1, obs, h, .ptr a =>
    match h[a]? with
    | none => .error .attributeError
    | some c =>
      if obs.length = 0 then .ok (h, .val x)
      else match Dict.get? obs c.1 with
        | none => do
            let w ← children (modify x n obs) h c.2
            return (w.1 ++ [(c.1, w.2)], .ptr w.1.length)
        | some s => match Dict.get? c.2 s with
          | none => .error .keyError
          | some r => do
              let w ← modify x n (obs.filter fun p => p.1 ≠ c.1) h r
              return (store w.1 a s w.2, .ptr a)

/-- `copy.deepcopy` of a tree (`treedictstore.py:39-40`).  `deepcopy` copies a node that is met
twice only once; the trees of these stores have no such node (`TreeState.Inv`). -/
def deepcopy : Nat → TreeHeap V S α → Ref α → Py (TreeHeap V S α × Ref α)
  | _, h, .val x => .ok (h, .val x)
  | 0, _, .ptr _ => .error .recursion
  | n + 1, h, .ptr a =>
    match h[a]? with
    | none => .error .attributeError
    | some c => do
        let w ← children (deepcopy n) h c.2
        return (w.1 ++ [(c.1, w.2)], .ptr w.1.length)

mutual
/-- The nodes of a tree made one after the other, all of them new
(`util/treesutil.py:23-40` `build_default_tree`). -/
def alloc : TreeHeap V S α → Tree V S α → TreeHeap V S α × Ref α
  | h, .leaf x => (h, .val x)
  | h, .node v f =>
      let w := allocF h f
      (w.1 ++ [(v, w.2)], .ptr w.1.length)
def allocF : TreeHeap V S α → Forest V S α → TreeHeap V S α × List (S × Ref α)
  | h, .nil => (h, [])
  | h, .cons s t f =>
      let q := alloc h t
      let w := allocF q.1 f
      (w.1, (s, q.2) :: w.2)
end

end TreeHeap

/-- A `TreeDictStore` object: its domain and the attribute `_data`. -/
structure TreeObj (V S α : Type) where
  dom : Dom V S
  data : Ref α

/-- What a program does with its stores; they are numbered in the order they are made. -/
inductive StoreOp (V S α : Type)
  /-- `TreeDictStore(dom, data)` with flat data -/
  | new (dom : Dom V S) (data : List α)
  /-- `stores[i].restrict(**obs)` -/
  | restrict (i : Nat) (obs : Obs V S)
  /-- `stores[i].copy()` -/
  | copy (i : Nat)
  /-- `stores[i].copy(deep=False)` -/
  | shallow (i : Nat)
  /-- `stores[i].set_value(x, obs)` -/
  | write (i : Nat) (x : α) (obs : Obs V S)

/-- The stores of a program as objects. -/
structure TreeState (V S α : Type) where
  heap : TreeHeap V S α
  objs : List (TreeObj V S α)

namespace TreeState

/-- The constructor called by the operations (`treedictstore.py:21-33`): a number for a non-empty
domain goes through `build_default_tree`, which makes a new node (see `TreeStore.build`). -/
def build (h : TreeHeap V S α) (dom : Dom V S) (r : Ref α) :
    Py (TreeHeap V S α × TreeObj V S α) :=
  match r, dom with
  | .val x, [(v, s :: _)] => .ok (h ++ [(v, [(s, .val x)])], ⟨dom, .ptr h.length⟩)
  | .val _, [(v, [])] => .ok (h ++ [(v, [])], ⟨dom, .ptr h.length⟩)
  | .val _, _ :: _ :: _ => .error .indexError
  | r, _ => .ok (h, ⟨dom, r⟩)

/-- `stores[i]` -/
def obj (st : TreeState V S α) (i : Nat) : Py (TreeObj V S α) :=
  match st.objs[i]? with
  | some o => .ok o
  | none => .error .indexError

/-- A new object. -/
def push (st : TreeState V S α) (p : TreeHeap V S α × TreeObj V S α) : TreeState V S α :=
  ⟨p.1, st.objs ++ [p.2]⟩

/-- One step of a program (`treedictops.py:108-114`, `store.py:31-34`,
`treedictstore.py:42-60`; `set_value` ends with an assignment to `self._data`; new data are
reshaped by the factor first, `mulitnomial.py:30`). -/
def step [Inhabited α] (n : Nat) (st : TreeState V S α) : StoreOp V S α → Py (TreeState V S α)
  | .new dom data =>
      if data.length = (cards dom).prod then
        let w := TreeHeap.alloc st.heap (buildDefaultTree dom data)
        .ok (st.push (w.1, ⟨dom, w.2⟩))
      else .error .valueError
  | .restrict i obs => do
      let o ← st.obj i
      let w ← TreeHeap.restrict n obs st.heap o.data
      let q ← build w.1 (o.dom.filter fun p => p.1 ∉ Dict.keys obs) w.2
      return st.push q
  | .copy i => do
      let o ← st.obj i
      let w ← TreeHeap.deepcopy n st.heap o.data
      let q ← build w.1 o.dom w.2
      return st.push q
  | .shallow i => do
      let o ← st.obj i
      let q ← build st.heap o.dom o.data
      return st.push q
  | .write i x obs => do
      let o ← st.obj i
      let w ← TreeHeap.modify x n (obs.filter fun p => p.1 ∈ Dict.keys o.dom) st.heap o.data
      return ⟨w.1, st.objs.set i ⟨o.dom, w.2⟩⟩

/-- A whole program. -/
def run [Inhabited α] (n : Nat) (ops : List (StoreOp V S α)) : Py (TreeState V S α) :=
  ops.foldlM (step n) ⟨[], []⟩

/-- What a reader sees: `stores[i].get_value(**obs)` (`treedictstore.py:62-63`). -/
def read (n : Nat) (st : TreeState V S α) (i : Nat) (obs : Obs V S) : Py α := do
  let o ← st.obj i
  let w ← TreeHeap.restrict n obs st.heap o.data
  let q ← build w.1 (o.dom.filter fun p => p.1 ∉ Dict.keys obs) w.2
  match q.2.data with
  | .val x => return x
  | .ptr _ => throw .notScalar

end TreeState

/-! ### Stores that keep an array -/

/-- The stores of a program as objects: arrays, and for every object the array it refers to. -/
structure ArrState (St : Type) where
  heap : List St
  objs : List Nat

namespace ArrState

variable [Inhabited α]

/-- `stores[i]`, with its array -/
def obj {St : Type} (st : ArrState St) (i : Nat) : Py (Nat × St) :=
  match st.objs[i]? with
  | none => .error .indexError
  | some a => match st.heap[a]? with
    | none => .error .attributeError
    | some s => .ok (a, s)

/-- A new object with an array of its own. -/
def push {St : Type} (st : ArrState St) (s : St) : ArrState St :=
  ⟨st.heap ++ [s], st.objs ++ [st.heap.length]⟩

/-- One step of a program.  `keeps` tells whether the constructor keeps an array it is given:
`np.array(data)` (`numpystore.py:30`) and `list(np.ravel(data))` (`liststore.py:29`) copy it,
`np.ravel(data)` (`numpystore.py:66`) does not.  The data of a restriction are new
(`numpyops.py:121`, `listops.py:73`, `numpystore.py:86`), and so are those of a deep copy. -/
def step (I : StoreImpl V S α) (keeps : Bool) (st : ArrState I.St) :
    StoreOp V S α → Py (ArrState I.St)
  | .new dom data => do return st.push (← I.ofFlat dom data)
  | .restrict i obs => do
      let o ← st.obj i
      return st.push (← I.restrict o.2 obs)
  | .copy i => do
      let o ← st.obj i
      return st.push o.2
  | .shallow i => do
      let o ← st.obj i
      if keeps then return ⟨st.heap, st.objs ++ [o.1]⟩ else return st.push o.2
  | .write i x obs => do
      let o ← st.obj i
      let s ← I.setValue o.2 x obs
      return ⟨st.heap.set o.1 s, st.objs⟩

/-- A whole program. -/
def run (I : StoreImpl V S α) (keeps : Bool) (ops : List (StoreOp V S α)) : Py (ArrState I.St) :=
  ops.foldlM (step I keeps) ⟨[], []⟩

end ArrState

/-! ### The same programs when every store is a value of its own -/

/-- The operations of a store. -/
structure StoreFns (V S α St : Type) where
  new : Dom V S → List α → Py St
  restrict : St → Obs V S → Py St
  copy : St → Py St
  write : St → α → Obs V S → Py St

/-- Those of the array stores; the constructor finds the data of a copy consistent. -/
def StoreImpl.fns (I : StoreImpl V S α) : StoreFns V S α I.St :=
  ⟨I.ofFlat, I.restrict, .ok, I.setValue⟩

/-- Those of the tree store; a copy is the constructor called again (`store.py:31-34`). -/
def TreeStore.fns [Inhabited α] : StoreFns V S α (TreeStore V S α) :=
  ⟨TreeStore.ofFlat?, TreeStore.restrict, fun s => TreeStore.build s.dom s.data, TreeStore.setValue⟩

/-- One step when nothing is shared, with the operations of the other models. -/
def valueStep {St : Type} (F : StoreFns V S α St) (sts : List St) : StoreOp V S α → Py (List St)
  | .new dom data => do return sts ++ [← F.new dom data]
  | .restrict i obs => match sts[i]? with
      | some s => do return sts ++ [← F.restrict s obs]
      | none => .error .indexError
  | .copy i => match sts[i]? with
      | some s => do return sts ++ [← F.copy s]
      | none => .error .indexError
  | .shallow i => match sts[i]? with
      | some s => do return sts ++ [← F.copy s]
      | none => .error .indexError
  | .write i x obs => match sts[i]? with
      | some s => do return sts.set i (← F.write s x obs)
      | none => .error .indexError

/-- A whole program when nothing is shared. -/
def valueRun {St : Type} (F : StoreFns V S α St) (ops : List (StoreOp V S α)) : Py (List St) :=
  ops.foldlM (valueStep F) []

end Verif
