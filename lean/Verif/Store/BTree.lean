import Verif.Store.Numpy
import Mathlib.Algebra.Order.Field.Basic

/-!
# The binary-tree store: `factors/values/btreestore.py`, `factors/values/btreeops.py`

Tables of finite numbers. `math.log` is a parameter, defined on positive numbers only. A table is the `NumpyStore` that the
constructor makes of it.
-/

set_option linter.unusedSectionVars false
set_option linter.unusedSimpArgs false

namespace Verif

/-- A number or a `BTreeNodeConsecutive` (`btreestore.py:73-82`): variable, states, end of the left states, children -/
inductive BTree (V S K : Type)
  | leaf (x : K)
  | node (v : V) (states : List S) (endLeft : Nat) (left right : BTree V S K)
  deriving DecidableEq, Repr

namespace BTree

variable {V S K : Type} [DecidableEq V] [DecidableEq S]

/-- `btreestore.py:84-86` `left_states` -/
def leftStates (st : List S) (e : Nat) : List S := st.take e

/-- `btreestore.py:88-90` `right_states` -/
def rightStates (st : List S) (e : Nat) : List S := st.drop e

/-- `list.index` -/
def listIndex (l : List S) (s : S) : Py Nat := if s ∈ l then .ok (l.idxOf s) else .error .valueError

/-- `btreestore.py:92-93` `is_on_left` -/
def isOnLeft (st : List S) (e : Nat) (s : S) : Py Bool := do
  let i ← listIndex st s
  return decide (i < e)

/-- `btreestore.py:75-82`: the constructor of a node with its check -/
def mkNode (v : V) (st : List S) (l r : BTree V S K) (e : Int) : Py (BTree V S K) :=
  if e < 1 ∨ e ≥ st.length then .error .valueError else .ok (.node v st e.toNat l r)

/-- The splitting point that `left_states` gives, `btreestore.py:55-56` -/
def pointLeft (st : List S) (left : List S) : Py Int := do
  match left.getLast? with
  | none => .error .indexError
  | some s =>
    let i ← listIndex st s
    return (i : Int) + 1

/-- The splitting point that `right_states` gives, `btreestore.py:57-58` -/
def pointRight (st : List S) (right : List S) : Py Int := do
  match right.head? with
  | none => .error .indexError
  | some s =>
    let i ← listIndex st s
    return (i : Int)

/-- The splitting point that `end_left_exclusive` gives, `btreestore.py:52-54` -/
def pointEnd (st : List S) (e : Int) : Int := if e < 0 then (st.length : Int) - e else e

/-- `btreestore.py:47-70` `build` with `consecutive=True` -/
def build (v : V) (st : List S) (l r : BTree V S K) (left right : Option (List S)) (endLeft : Option Int) : Py (BTree V S K) := do
  let p1 := endLeft.toList.map (pointEnd st)
  let p2 ← left.toList.mapM (pointLeft st)
  let p3 ← right.toList.mapM (pointRight st)
  let ps := p1 ++ p2 ++ p3
  let ps := if ps.dedup.length = 0 ∧ st.length = 2 then [1] else ps
  if ps.dedup.length ≠ 1 then .error .valueError
  match ps with
  | [] => .error .valueError
  | e :: _ => mkNode v st l r e

variable [Inhabited K] [Field K] [LinearOrder K]

/-- `math.log(x)` -/
def pyLog (log : K → K) (x : K) : Py K := if 0 < x then .ok (log x) else .error .valueError

/-- `store.py:138-145` `all_equal` (all values are looked up; python stops at the first that differs) -/
def allEqual (t : NumpyStore V S K) : Py Bool := do
  let l ← t.valuesList
  match l with
  | [] => .error .indexError
  | x :: xs => return xs.all fun y => decide (y = x)

/-- `store.py:166-167` `sum_all` -/
def sumAll (t : NumpyStore V S K) : Py K := do
  let l ← t.valuesList
  return l.sum

/-- The local variables `best_…` of `_best_split_point` -/
structure Split (V S K : Type) where
  v : V
  left : List S
  leftTable : NumpyStore V S K
  rightTable : NumpyStore V S K

/-- `btreestore.py:147`: `sum_At * math.log(n / sum_At)`. For `sum_At = 0` it is `0 * inf`, which is `nan` (`none` here). -/
def infoAll (log : K → K) (n : Nat) (sum : K) : Py (Option K) :=
  if sum = 0 then .ok none else do
    let y ← pyLog log ((n : K) / sum)
    return some (sum * y)

/-- `btreestore.py:159-162`: what one side adds -/
def infoSide (log : K → K) (n : Nat) (sum : K) : Py K :=
  if 0 < sum then do
    let y ← pyLog log (sum / (n : K))
    return sum * y
  else .ok 0

/-- `x < y` with `none` for minus infinity on the left and for `nan` on the right -/
def infoLess : Option K → Option K → Bool
  | _, none => false
  | none, some _ => true
  | some x, some y => decide (x < y)

/-- `btreestore.py:149-165`: the body of the inner loop. `infoMax` is `-Inf` at every call, because no line assigns it. -/
def splitStep (log : K → K) (t : NumpyStore V S K) (v : V) (st : List S) (infoAt : Option K) (infoMax : Option K)
    (best : Option (Split V S K)) (s : Nat) : Py (Option (Split V S K)) := do
  let tl := st.take s
  let tr := st.drop s
  let lt ← t.restrictG [(v, .many tl)]
  let rt ← t.restrictG [(v, .many tr)]
  let sl ← sumAll lt
  let sr ← sumAll rt
  let il ← infoSide log tl.length sl
  let ir ← infoSide log tr.length sr
  return if infoLess infoMax (infoAt.map fun x => x + il + ir) then some ⟨v, tl, lt, rt⟩ else best

/-- `btreestore.py:145-165`: the body of the outer loop -/
def varStep (log : K → K) (t : NumpyStore V S K) (best : Option (Split V S K)) (p : V × List S) : Py (Option (Split V S K)) := do
  let sum ← sumAll t
  let infoAt ← infoAll log p.2.length sum
  (List.range' 1 (p.2.length - 1)).foldlM (splitStep log t p.1 p.2 infoAt none) best

/-- `btreestore.py:138-167` `_best_split_point` -/
def bestSplit (log : K → K) (t : NumpyStore V S K) : Py (Option (Split V S K)) :=
  t.dom.foldlM (varStep log t) none

/-- `btreestore.py:124-136` `_build_from_table`; `fuel` bounds the depth of the recursion. Without a split
`best_right_states` has no value: an `UnboundLocalError` in line 167, `attributeError` here. -/
def ofTable (log : K → K) : Nat → NumpyStore V S K → Py (BTree V S K)
  | 0, _ => .error .assertion
  | n + 1, t => do
    if ← allEqual t then
      let l ← t.valuesList
      match l with
      | [] => .error .indexError
      | x :: _ => return .leaf x
    else
      match ← bestSplit log t with
      | none => .error .attributeError
      | some b =>
        let l ← ofTable log n b.leftTable
        let r ← ofTable log n b.rightTable
        let st ← Dict.get t.dom b.v
        build b.v st l r (some b.left) none none

/-- Depth that is enough: every split takes states away -/
def depth (d : Dom V S) : Nat := (cards d).sum + 1

end BTree

/-- `BTreeStore`: domain and tree -/
structure BTreeStore (V S K : Type) where
  dom : Dom V S
  data : BTree V S K
  deriving DecidableEq, Repr

namespace BTreeStore

variable {V S K : Type} [DecidableEq V] [DecidableEq S] [Inhabited K] [Field K] [LinearOrder K]

/-- What the constructor takes: an array, a node, or a number -/
inductive Data (V S K : Type)
  | array (a : NdArray K)
  | node (v : V) (states : List S) (endLeft : Nat) (left right : BTree V S K)
  | number (x : K)

/-- `btreestore.py:108-122`: the constructor. Data that is not a node becomes a `NumpyStore` first; a number has dimension 0, so
this fails unless the domain is empty. With the empty domain the data are kept (arrays are left out, `notImplemented` here), and the default
`np.zeros(1.0)` is a `TypeError`. -/
def make (log : K → K) (d : Dom V S) : Option (Data V S K) → Py (BTreeStore V S K)
  | some (.node v st e l r) => .ok ⟨d, .node v st e l r⟩
  | some (.number x) => if d.length > 0 then .error .valueError else .ok ⟨d, .leaf x⟩
  | some (.array a) => if d.length > 0 then do
        let t ← NumpyStore.mk? d a
        let b ← BTree.ofTable log (BTree.depth d) t
        return ⟨d, b⟩
      else .error .notImplemented
  | none => if d.length > 0 then do
        let t ← NumpyStore.mk? d ⟨[(cards d).prod], List.replicate (cards d).prod 0⟩
        let b ← BTree.ofTable log (BTree.depth d) t
        return ⟨d, b⟩
      else .error .typeError

/-- The data of a store, given to the constructor again -/
def toData : BTree V S K → Data V S K
  | .leaf x => .number x
  | .node v st e l r => .node v st e l r

/-- `store.py:31-34` `copy` -/
def copy (log : K → K) (s : BTreeStore V S K) : Py (BTreeStore V S K) := make log s.dom (some (toData s.data))

/-- `btreestore.py:179-180` `get_value` -/
def getValue (_ : BTreeStore V S K) (_ : Obs V S) : Py K := .error .notImplemented

/-- `btreestore.py:176-177` `set_value` -/
def setValue (_ : BTreeStore V S K) (_ : K) (_ : Obs V S) : Py (BTreeStore V S K) := .error .notImplemented

/-- `btreeops.py:14-16` `marginalize` -/
def marginalize (_ : BTreeStore V S K) (_ : List V) : Py (BTreeStore V S K) := .error .notImplemented

/-- `btreeops.py:29-37` `_generic_combine`: there is no `_combine_btreenode` -/
def combine (_ : K → K → K) (_ _ : BTreeStore V S K) : Py (BTreeStore V S K) := .error .attributeError

/-- `btreeops.py:56-57` `restrict` -/
def restrict (_ : BTreeStore V S K) (_ : Obs V S) : Py (BTreeStore V S K) := .error .notImplemented

end BTreeStore
end Verif
