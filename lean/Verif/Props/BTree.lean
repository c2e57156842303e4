import Verif.Store.BTreeLemmas
import Verif.Props.ExNet
import Mathlib.Analysis.SpecialFunctions.Log.Basic

/-!
# C68: the binary-tree store; C76: the split that it chooses
-/

set_option linter.unusedSectionVars false
set_option linter.unusedSimpArgs false

namespace Verif.Props
open Verif.BTree

variable {V S K : Type} [DecidableEq V] [DecidableEq S] [Inhabited K] [Field K] [LinearOrder K] [IsStrictOrderedRing K]

/-- What a tree says about a joint state: at each node, go to the side that `is_on_left` names. (The store itself has no
lookup, see `C68_no_lookup`.) -/
def treeValue : BTree V S K → Obs V S → Py K
  | .leaf x, _ => .ok x
  | .node v st e l r, o => do
    let s ← Dict.get o v
    if ← isOnLeft st e s then treeValue l o else treeValue r o

/-- **C68** (`btreestore.py:124-136`) for a table without negative entries, the tree is built, and it gives at every joint state the
value of the table. `log` is any function. -/
theorem C68_tree [Nonempty S] (log : K → K) {t : NumpyStore V S K} (ht : t.WF) (hn : ∀ a, InDom t.dom a → 0 ≤ t.sem a) :
    ∃ b, ofTable log (depth t.dom) t = .ok b ∧
      ∀ obs a, InDom t.dom a → Covers t.dom obs a → treeValue b obs = .ok (t.sem a) := by
  have key : ∀ n (t : NumpyStore V S K), t.WF → NonNeg t → (cards t.dom).sum < n →
      ∃ b, ofTable log n t = .ok b ∧ ∀ obs a, InDom t.dom a → Covers t.dom obs a → treeValue b obs = .ok (t.sem a) := by
    intro n
    induction n with
    | zero => intro t _ _ h; omega
    | succ n ih =>
      intro t ht hn hs
      rcases allEqual_ok ht with ⟨h1, x, l, h2, h3⟩ | ⟨h1, hne⟩
      · refine ⟨.leaf x, ?_, fun obs a ha _ => ?_⟩
        · rw [ofTable, h1, py_ok_bind, if_pos rfl, h2]; rfl
        · rw [treeValue, h3 a ha]
      · obtain ⟨p, hp, hlast, hlen⟩ := exists_splittable ht hne
        obtain ⟨b, hb, hbest⟩ := bestSplit_ok log ht hn hne hlast
        obtain ⟨bl, l1, l2⟩ := ih b.leftTable hb.leftPart.wf (hn.part hb.leftPart) (by have := hb.leftSize; omega)
        obtain ⟨br, r1, r2⟩ := ih b.rightTable hb.rightPart.wf (hn.part hb.rightPart) (by have := hb.rightSize; omega)
        have hnd := ht.dom.states p hp
        refine ⟨.node p.1 p.2 (p.2.length - 1) bl br, ?_, fun obs a ha hc => ?_⟩
        · rw [ofTable, h1, py_ok_bind, if_neg (by simp), hbest, py_ok_bind]
          simp only [l1, r1, py_ok_bind, hb.var, get_dom_of_mem ht.dom.keys hp, hb.left]
          exact build_take p.1 hnd (by omega) (by omega) bl br
        · have hk : p.1 ∈ Dict.keys t.dom := Dict.mem_keys_of_mem hp
          have hav := ha p hp
          have hside : ∀ (l : List S) (r : NumpyStore V S K), NumpyStore.Part t p.1 l r → Covers r.dom obs a :=
            fun l r hr w hw => hc w (hr.keys w hw)
          have hget : Dict.get obs p.1 = .ok (a p.1) := by rw [Dict.get, hc p.1 hk]
          rw [treeValue, hget, py_ok_bind, isOnLeft, listIndex, if_pos hav]
          simp only [py_ok_bind, pure_bind]
          by_cases hi : p.2.idxOf (a p.1) < p.2.length - 1
          · have hmem : a p.1 ∈ p.2.take (p.2.length - 1) := by
              rw [List.mem_take_iff_idxOf_lt hav]; exact hi
            obtain ⟨i1, i2⟩ := hb.leftPart.inside a ha hmem
            simp only [hi, decide_true, if_true, pure, Except.pure, bind, Except.bind]
            rw [l2 obs a i1 (hside _ _ hb.leftPart), i2]
          · have hmem : a p.1 ∈ p.2.drop (p.2.length - 1) := by
              have h := List.take_append_drop (p.2.length - 1) p.2
              rcases List.mem_append.1 (h.symm ▸ hav) with h' | h'
              · exact absurd ((List.mem_take_iff_idxOf_lt hav).1 h') hi
              · exact h'
            obtain ⟨i1, i2⟩ := hb.rightPart.inside a ha hmem
            simp only [hi, decide_false, pure, Except.pure, bind, Except.bind]
            exact (r2 obs a i1 (hside _ _ hb.rightPart)).trans (by rw [i2])
  exact key _ t ht hn (by rw [depth]; omega)

/-- **C68** the constructor on such a table -/
theorem C68_store [Nonempty S] (log : K → K) {d : Dom V S} (hd : DomOk d) (h0 : d ≠ []) {vals : NdArray K} (hw : vals.WF)
    (hs : vals.shape = cards d) (hn : ∀ x ∈ vals.flat, 0 ≤ x) :
    ∃ s, BTreeStore.make log d (some (.array vals)) = .ok s ∧ s.dom = d ∧
      ∀ obs a, InDom d a → Covers d obs a → treeValue s.data obs = .ok (vals.get (coords d a)) := by
  have ht : NumpyStore.WF (⟨d, vals⟩ : NumpyStore V S K) := ⟨hd, hw, hs⟩
  obtain ⟨b, b1, b2⟩ := C68_tree log ht (fun a ha => by
    have hi := validIdx_coords ha
    rw [← hs] at hi
    have hlt : ravel vals.shape (coords d a) < vals.flat.length := by
      have := ravel_lt hi
      rwa [← show vals.flat.length = vals.shape.prod from hw] at this
    have : vals.get (coords d a) = vals.flat[ravel vals.shape (coords d a)] := by
      simp [NdArray.get, hlt]
    show 0 ≤ vals.get (coords d a)
    rw [this]
    exact hn _ (List.getElem_mem _))
  refine ⟨⟨d, b⟩, ?_, rfl, b2⟩
  have hl : d.length > 0 := List.length_pos_iff.2 h0
  simp only [BTreeStore.make, hl, if_true, NumpyStore.mk?, hs, py_ok_bind]
  rw [b1]; rfl

/-- **C68** no operation of the store can be used: looking up, writing, restricting and marginalising are not implemented, and
combining two stores calls a function that does not exist. -/
theorem C68_no_lookup (s t : BTreeStore V S K) (obs : Obs V S) (x : K) (vs : List V) (op : K → K → K) :
    s.getValue obs = .error .notImplemented ∧ s.setValue x obs = .error .notImplemented ∧ s.restrict obs = .error .notImplemented ∧
      s.marginalize vs = .error .notImplemented ∧ s.combine op t = .error .attributeError := ⟨rfl, rfl, rfl, rfl, rfl⟩

/-- **C68** a copy of a store with a constant table is refused: its tree is a number, which the constructor takes for a table. -/
theorem C68_copy_constant (log : K → K) {d : Dom V S} (h0 : d ≠ []) (x : K) :
    BTreeStore.copy log (⟨d, .leaf x⟩ : BTreeStore V S K) = .error .valueError := by
  have hl : d.length > 0 := List.length_pos_iff.2 h0
  simp [BTreeStore.copy, BTreeStore.toData, BTreeStore.make, hl]

/-- **C68** a copy of any other store is the store. -/
theorem C68_copy_node (log : K → K) (d : Dom V S) (v : V) (st : List S) (e : Nat) (l r : BTree V S K) :
    BTreeStore.copy log ⟨d, .node v st e l r⟩ = .ok ⟨d, .node v st e l r⟩ := rfl

/-- **C68** a negative end of the left states never names a place counted from the end: it is always refused. -/
theorem C68_negative_end (v : V) (st : List S) (l r : BTree V S K) {e : Int} (he : e < 0) :
    build v st l r none none (some e) = .error .valueError := by
  have h : ¬ ((st.length : Int) - e < 1) := by omega
  have h' : (st.length : Int) - e ≥ st.length := by omega
  simp [build, pointEnd, he, mkNode, h, h', pure, Except.pure, bind, Except.bind]

/-! ### C76 -/

/-- **C76** `_best_split_point` looks at no number: on every table without negative entries whose entries are not all equal it
returns the last variable that has two states or more, split before its last state. -/
theorem C76_last_split [Nonempty S] (log : K → K) {t : NumpyStore V S K} (ht : t.WF) (hn : ∀ a, InDom t.dom a → 0 ≤ t.sem a)
    (hne : ∃ a b, InDom t.dom a ∧ InDom t.dom b ∧ t.sem a ≠ t.sem b) :
    ∃ p b, (t.dom.filter fun p => decide (2 ≤ p.2.length)).getLast? = some p ∧ bestSplit log t = .ok (some b) ∧ b.v = p.1 ∧
      b.left = p.2.dropLast := by
  obtain ⟨p, hp, hlast, hlen⟩ := exists_splittable ht hne
  obtain ⟨b, hb, hbest⟩ := bestSplit_ok log ht hn hne hlast
  exact ⟨p, b, hlast, hbest, hb.var, by rw [hb.left, List.dropLast_eq_take]⟩

/-- The information of the split of a table with the given sums: `n` states with sum `l + r`, of which `nl` with sum `l` are on the
left and `nr` with sum `r` on the right -/
noncomputable def splitInformation (nl nr : Nat) (l r : ℝ) : ℝ :=
  (l + r) * Real.log ((nl + nr : ℕ) / (l + r)) + l * Real.log (l / nl) + r * Real.log (r / nr)

/-- The table of two binary variables whose entries depend on the first one only: 1, 1, 3, 3 -/
def tableA (K : Type) [Field K] : NumpyStore Char Char K := ⟨[('A', ['a', 'b']), ('B', ['c', 'd'])], ⟨[2, 2], [1, 1, 3, 3]⟩⟩

/-- **C76** does not hold: in a table that depends on `A` only, the method splits `B`, although `A` has more information. -/
theorem C76_not_best : splitInformation 1 1 4 4 < splitInformation 1 1 2 6 ∧
    (bestSplit (fun x => x) (tableA ℚ)).map (fun b => b.map fun b => (b.v, b.left)) = .ok (some ('B', ['c'])) := by
  refine ⟨?_, by decide +kernel⟩
  have h1 : Real.log 4 = 2 * Real.log 2 := by
    rw [show (4 : ℝ) = 2 ^ 2 by norm_num, Real.log_pow]; norm_num
  have h2 : Real.log 6 = Real.log 2 + Real.log 3 := by
    rw [show (6 : ℝ) = 2 * 3 by norm_num, Real.log_mul (by norm_num) (by norm_num)]
  have h3 : 4 * Real.log 2 < 3 * Real.log 3 := by
    have : Real.log (2 ^ 4) < Real.log (3 ^ 3) := Real.log_lt_log (by norm_num) (by norm_num)
    rw [Real.log_pow, Real.log_pow] at this
    norm_num at this ⊢
    exact this
  rw [splitInformation, splitInformation]
  norm_num
  rw [h1, h2]
  linarith

/-! ### Examples -/

/-- Entries for two variables, one with three states, and a third with one state -/
def tableEx : NumpyStore Char Char ℚ :=
  ⟨[('A', ['a', 'b']), ('B', ['c', 'd', 'e']), ('C', ['f'])], ⟨[2, 3, 1], [1/5, 1/5, 1/2, 1/5, 1/5, 3/5]⟩⟩

/-- The hypotheses of `C68_store` and `C76_last_split` can be met. -/
example : DomOk tableEx.dom ∧ tableEx.dom ≠ [] ∧ tableEx.data.WF ∧ tableEx.data.shape = cards tableEx.dom ∧
    (∀ x ∈ tableEx.data.flat, 0 ≤ x) :=
  ⟨⟨by decide, by decide, by decide⟩, by decide, rfl, rfl, by decide +kernel⟩

example : ofTable (fun x => x) (depth tableEx.dom) tableEx =
    .ok (.node 'B' ['c', 'd', 'e'] 2 (.leaf (1/5)) (.node 'A' ['a', 'b'] 1 (.leaf (1/2)) (.leaf (3/5)))) := by decide +kernel

example : (bestSplit (fun x => x) tableEx).map (fun b => b.map fun b => (b.v, b.left)) = .ok (some ('B', ['c', 'd'])) := by decide +kernel

/-- Without the condition on the signs the tree cannot be built: a table with a negative sum, and one with sum zero. -/
theorem C68_negative : ofTable (fun x => x) 9 (⟨[('A', ['a', 'b'])], ⟨[2], [-2, 1]⟩⟩ : NumpyStore Char Char ℚ) = .error .valueError ∧
    ofTable (fun x => x) 9 (⟨[('A', ['a', 'b'])], ⟨[2], [-1, 1]⟩⟩ : NumpyStore Char Char ℚ) = .error .attributeError := by
  decide +kernel

/-- The default data of the constructor are refused for two variables. -/
theorem C68_default : BTreeStore.make (fun x => x) [('A', ['a', 'b']), ('B', ['c', 'd'])] (none : Option (BTreeStore.Data Char Char ℚ)) =
    .error .valueError := by decide +kernel

end Verif.Props
