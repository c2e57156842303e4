import Verif.Store.HeapRun
import Mathlib.Data.Int.Basic

/-!
# C69: factors obtained from others and written

A program makes stores with the constructor, restricts and copies them and writes into them.  As
long as no store that has lent or borrowed nodes is written, the objects behave as values.
-/

set_option linter.unusedSectionVars false
set_option linter.unusedSimpArgs false

namespace Verif.Props

open Verif

variable {V S α : Type} [DecidableEq V] [DecidableEq S] [Inhabited α]

/-! ### Arrays -/

/-- Does the constructor keep an array it is given?  Only `np.ravel` does (`numpystore.py:66`). -/
def keepsArray : VType → Bool
  | .numpy1d => true
  | _ => false

/-- The contents of the `i`-th store. -/
def arrValue {St : Type} (st : ArrState St) (i : Nat) : Option St :=
  (st.objs[i]?).bind fun a => st.heap[a]?

/-- **C69** stores with arrays: any program of constructions, restrictions, copies and writes gives
every store the contents it would have if nothing were shared (and raises when that raises).  With
one-dimensional arrays the program must not use `copy(deep=False)`. -/
theorem C69_arrays [AddCommMonoid α] (vt : VType) (ops : List (StoreOp V S α))
    (hk : vt = .numpy1d → ∀ i, .shallow i ∉ ops) :
    match ArrState.run (storeOf vt) (keepsArray vt) ops, valueRun (storeOf vt).fns ops with
    | .ok st, .ok sts => st.objs.length = sts.length ∧ ∀ i, arrValue st i = sts[i]?
    | .error e, .error e' => e = e'
    | _, _ => False := by
  have h := ArrState.runFrom_agrees (I := storeOf vt) (keeps := keepsArray vt) ops (st := ⟨[], []⟩)
    (sts := []) ⟨rfl, by simp, by simp⟩ (fun h => hk (by cases vt <;> simp [keepsArray] at h ⊢))
  change TreeState.Agrees2 (ArrState.run (storeOf vt) (keepsArray vt) ops)
    (valueRun (storeOf vt).fns ops) _ at h
  rcases hx : ArrState.run (storeOf vt) (keepsArray vt) ops with e | st <;>
    rcases hy : valueRun (storeOf vt).fns ops with e' | sts <;> rw [hx, hy] at h <;>
    simp only [TreeState.Agrees2] at h
  · exact h
  · refine ⟨h.1, fun i => ?_⟩
    rw [arrValue]
    rcases hi : st.objs[i]? with _ | a
    · rw [Option.bind_none]
      rw [List.getElem?_eq_none_iff] at hi
      exact (List.getElem?_eq_none (by rw [← h.1]; exact hi)).symm
    · rw [Option.bind_some]
      exact (h.2.2 i a hi).2

/-- **C69** in such a program a write changes one store only. -/
theorem C69_arrays_write [AddCommMonoid α] (vt : VType) (ops : List (StoreOp V S α))
    (hk : vt = .numpy1d → ∀ i, .shallow i ∉ ops) {st st' : ArrState (storeOf vt : StoreImpl V S α).St}
    (h : ArrState.run (storeOf vt) (keepsArray vt) ops = .ok st) {i : Nat} {x : α} {obs : Obs V S}
    (h' : st.step (storeOf vt) (keepsArray vt) (.write i x obs) = .ok st') {j : Nat} (hj : j ≠ i) :
    arrValue st' j = arrValue st j := by
  have h1 := C69_arrays vt ops hk
  have h2 := C69_arrays vt (ops ++ [.write i x obs]) (fun hv k hm => by
    rcases List.mem_append.1 hm with hm | hm
    · exact hk hv k hm
    · simp at hm)
  have e : ArrState.run (storeOf vt) (keepsArray vt) (ops ++ [.write i x obs]) = .ok st' := by
    rw [ArrState.run, List.foldlM_append]
    rw [ArrState.run] at h
    rw [h, py_ok_bind, List.foldlM_cons, h']; rfl
  rw [e] at h2
  rw [h] at h1
  rcases hv : valueRun (storeOf vt).fns ops with e' | sts
  · rw [hv] at h1; exact h1.elim
  · rw [hv] at h1
    have hv2 : valueRun (storeOf vt).fns (ops ++ [.write i x obs]) =
        valueStep (storeOf vt).fns sts (.write i x obs) := by
      rw [valueRun, List.foldlM_append]
      rw [valueRun] at hv
      rw [hv, py_ok_bind, List.foldlM_cons]
      rcases valueStep (storeOf vt).fns sts (.write i x obs) with e | s <;> rfl
    rw [hv2] at h2
    rcases hv3 : valueStep (storeOf vt).fns sts (.write i x obs) with e' | sts'
    · rw [hv3] at h2; exact h2.elim
    · rw [hv3] at h2
      rw [h2.2 j, h1.2 j]
      rw [valueStep] at hv3
      rcases hs : sts[i]? with _ | s <;> rw [hs] at hv3
      · cases hv3
      · simp only at hv3
        rcases hw : (storeOf vt : StoreImpl V S α).fns.write s x obs with e | s'
        · rw [hw] at hv3; cases hv3
        · rw [hw] at hv3
          cases hv3
          exact List.getElem?_set_ne (Ne.symm hj)

/-! ### Trees -/

/-- **C69** tree stores, as long as every store that is written was made by the constructor or by
`copy()` and nothing has been restricted or shallowly copied from it: the program does what it would
do if nothing were shared, and every later reading gives the same.  (`n` is python's recursion
limit.)  The full statement, without that condition, does not hold: `C69_tree_shares`. -/
theorem C69_trees_partial (n : Nat) (ops : List (StoreOp V S α))
    (hn : ∀ d data, .new d data ∈ ops → d.length ≤ n)
    (hown : (ops.foldlM ownStep ([] : List Bool)).isSome) :
    match TreeState.run n ops, valueRun TreeStore.fns ops with
    | .ok st, .ok sts => st.objs.length = sts.length ∧
        ∀ (i : Nat) s, sts[i]? = some s → ∀ obs, st.read n i obs = s.getValue obs
    | .error e, .error e' => e = e'
    | _, _ => False := by
  obtain ⟨own', hown⟩ := Option.isSome_iff_exists.1 hown
  have h := TreeState.runFrom_agrees (n := n) ops (own := []) (own' := own') (st := ⟨[], []⟩)
    (sts := []) ⟨rfl, rfl, fun _ => [], by simp, by simp⟩ hn hown
  change TreeState.Agrees2 (TreeState.run n ops) (valueRun TreeStore.fns ops) _ at h
  rcases hx : TreeState.run n ops with e | st <;>
    rcases hy : valueRun TreeStore.fns ops with e' | sts <;> rw [hx, hy] at h <;>
    simp only [TreeState.Agrees2] at h
  · exact h
  · exact ⟨h.1, fun i s hs obs => TreeState.read_eq h hs obs⟩

/-- The restriction at the variable of the root is the child itself, not a copy of it. -/
theorem C69_tree_same_node (n : Nat) {h : TreeHeap V S α} {a b : Nat} {v : V} {s : S}
    {ch : List (S × Ref α)} {c : Cell V S α} (ha : h[a]? = some (v, ch)) (hb : h[b]? = some c)
    (hs : Dict.get? ch s = some (.ptr b)) :
    TreeHeap.restrict (n + 2) [(v, s)] h (.ptr a) = .ok (h, .ptr b) := by
  rw [TreeHeap.restrict, ha]
  simp only [List.length_singleton, Nat.one_ne_zero, if_false, Dict.get?, if_true, hs]
  rw [TreeHeap.restrict, hb]
  simp

/-! ### Examples -/

/-- Two variables with two states. -/
def domShare : Dom Char Char := [('A', ['a', 'b']), ('B', ['c', 'd'])]

/-- A factor, its restriction to `A = a`, and a write into the restriction. -/
def restrictAndWrite : List (StoreOp Char Char ℤ) :=
  [.new domShare [1, 2, 3, 4], .restrict 0 [('A', 'a')], .write 1 9 [('B', 'c')]]

/-- The same with a copy of the restriction. -/
def restrictCopyWrite : List (StoreOp Char Char ℤ) :=
  [.new domShare [1, 2, 3, 4], .restrict 0 [('A', 'a')], .copy 1, .write 2 9 [('B', 'c')], .copy 0,
    .write 3 7 [('A', 'b'), ('B', 'd')]]

/-- What a reader finds in the stores of a tree program. -/
def treeReads (ops : List (StoreOp Char Char ℤ)) (q : List (Nat × Obs Char Char)) : Py (List ℤ) := do
  let st ← TreeState.run 10 ops
  q.mapM fun p => st.read 10 p.1 p.2

/-- **C69** does not hold for trees: after a write into the restriction the source has changed. -/
theorem C69_tree_shares :
    treeReads (restrictAndWrite.take 2) [(0, [('A', 'a'), ('B', 'c')])] = .ok [1] ∧
    treeReads restrictAndWrite [(0, [('A', 'a'), ('B', 'c')])] = .ok [9] := by
  decide +kernel

/-- A write into the source shows in the restriction made before. -/
theorem C69_tree_shares_back :
    treeReads ([.new domShare [1, 2, 3, 4], .restrict 0 [('A', 'a')]] ++
      [.write 0 9 [('A', 'a'), ('B', 'c')]]) [(1, [('B', 'c')])] = .ok [9] := by
  decide +kernel

/-- A restriction at another variable than that of the root has nodes of its own. -/
example : treeReads [.new domShare [1, 2, 3, 4], .restrict 0 [('B', 'c')], .write 1 9 [('A', 'a')]]
    [(0, [('A', 'a'), ('B', 'c')]), (1, [('A', 'a')])] = .ok [1, 9] := by
  decide +kernel

/-- The program with a copy meets the condition of `C69_trees_partial`, the one without does not. -/
example : (restrictCopyWrite.foldlM ownStep ([] : List Bool)).isSome ∧
    ¬ (restrictAndWrite.foldlM ownStep ([] : List Bool)).isSome ∧
    (∀ d data, .new d data ∈ restrictCopyWrite → d.length ≤ 10) := by
  refine ⟨by decide, by decide, ?_⟩
  intro d data h
  simp [restrictCopyWrite] at h
  rw [h.1]; decide

example : treeReads restrictCopyWrite [(0, [('A', 'a'), ('B', 'c')]), (1, [('B', 'c')]), (2, [('B', 'c')]),
    (0, [('A', 'b'), ('B', 'd')]), (3, [('A', 'b'), ('B', 'd')])] = .ok [1, 1, 9, 4, 7] := by
  decide +kernel

/-- The contents of all stores of an array program. -/
def arrReads (vt : VType) (ops : List (StoreOp Char Char ℤ)) : Py (List (List ℤ)) := do
  let st ← ArrState.run (storeOf vt) (keepsArray vt) ops
  st.objs.mapM fun a => match st.heap[a]? with
    | some s => (storeOf vt).valuesList s
    | none => .error .attributeError

/-- With arrays the same program leaves the source alone. -/
example : ∀ vt ∈ [VType.numpy, .numpy1d, .list],
    arrReads vt restrictAndWrite = .ok [[1, 2, 3, 4], [9, 2]] := by
  decide +kernel

/-- A shallow copy is written. -/
def shallowAndWrite : List (StoreOp Char Char ℤ) :=
  [.new domShare [1, 2, 3, 4], .shallow 0, .write 1 9 [('A', 'a'), ('B', 'c')]]

/-- **C69** does not hold for shallow copies of one-dimensional arrays and of trees; with the two
other stores `copy(deep=False)` copies all the same. -/
theorem C69_shallow :
    arrReads .numpy1d shallowAndWrite = .ok [[9, 2, 3, 4], [9, 2, 3, 4]] ∧
    arrReads .numpy shallowAndWrite = .ok [[1, 2, 3, 4], [9, 2, 3, 4]] ∧
    arrReads .list shallowAndWrite = .ok [[1, 2, 3, 4], [9, 2, 3, 4]] ∧
    treeReads shallowAndWrite [(0, [('A', 'a'), ('B', 'c')])] = .ok [9] := by
  decide +kernel

end Verif.Props
