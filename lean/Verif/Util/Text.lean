import Verif.Graph.Basic

/-!
# Strings: `str.split`, and graphs written as strings (`util/graphutils.py`)

A string is the list of its characters.
-/

namespace Verif

/-- A python string. -/
abbrev Str := List Char

/-- Left-to-right scan of `str.split`: `skip` characters of a separator are still to be dropped, `cur` is the current
piece (reversed). -/
def splitGo (sep : Str) : Nat → Str → Str → List Str
  | _, cur, [] => [cur.reverse]
  | 0, cur, c :: s =>
    if sep.isPrefixOf (c :: s) then cur.reverse :: splitGo sep (sep.length - 1) [] s else splitGo sep 0 (c :: cur) s
  | n + 1, cur, _ :: s => splitGo sep n cur s

/-- `s.split(sep)` for a non-empty separator -/
def pySplit (sep s : Str) : List Str := splitGo sep 0 [] s

/-- `sep.join(l)` -/
def pyJoin (sep : Str) : List Str → Str
  | [] => []
  | [x] => x
  | x :: y :: l => x ++ sep ++ pyJoin sep (y :: l)

/-- The text of one node in `dag2str` (`graphutils.py:13-18`). -/
def nodeText (v : Str) (pa : List Str) : Str :=
  '[' :: v ++ (if pa.length > 0 then '|' :: pyJoin [':'] pa else []) ++ [']']

/-- `graphutils.py:10-19` `dag2str` -/
def dag2str (g : DiGraph Str) : Py Str := do
  let l ← g.nodes.mapM fun v => do
    let pa ← g.predecessors v
    return nodeText v pa
  return l.flatten

/-- Body of the loop of `str2dag` (`graphutils.py:26-29`). -/
def partArcs (s : Str) : Py (List (Str × Str)) :=
  if '|' ∈ s then
    match pySplit ['|'] s with
    | [x, right] => .ok ((pySplit [':'] right).map fun y => (y, x))
    | _ => .error .valueError
  else .ok []

/-- `graphutils.py:22-31` `str2dag`; the second line of the code indexes the list of parts. -/
def str2dag (s : Str) : Py (DiGraph Str) := do
  let parts := pySplit [']', '['] (s.drop 1).dropLast
  if parts.length < 2 then throw .indexError
  let arcs ← parts.mapM partArcs
  return DiGraph.ofEdges arcs.flatten

/-! ### Splitting what was joined -/

theorem splitGo_char {c : Char} (x : Str) (hx : c ∉ x) (cur rest : Str) :
    splitGo [c] 0 cur (x ++ c :: rest) = (cur.reverse ++ x) :: splitGo [c] 0 [] rest := by
  induction x generalizing cur with
  | nil => simp [splitGo, List.isPrefixOf]
  | cons y x ih =>
    have hy : (c == y) = false := by
      simp only [beq_eq_false_iff_ne]; rintro rfl; exact hx List.mem_cons_self
    rw [List.cons_append, splitGo]
    simp only [List.isPrefixOf, hy, Bool.false_and, Bool.false_eq_true, if_false]
    rw [ih (fun h => hx (List.mem_cons_of_mem _ h))]
    simp

theorem splitGo_char_end {c : Char} (x : Str) (hx : c ∉ x) (cur : Str) : splitGo [c] 0 cur x = [cur.reverse ++ x] := by
  induction x generalizing cur with
  | nil => simp [splitGo]
  | cons y x ih =>
    have hy : (c == y) = false := by
      simp only [beq_eq_false_iff_ne]; rintro rfl; exact hx List.mem_cons_self
    rw [splitGo]
    simp only [List.isPrefixOf, hy, Bool.false_and, Bool.false_eq_true, if_false]
    rw [ih (fun h => hx (List.mem_cons_of_mem _ h))]
    simp

/-- Splitting at a character what was joined with it. -/
theorem split_join_char {c : Char} (l : List Str) (hne : l ≠ []) (hl : ∀ x ∈ l, c ∉ x) : pySplit [c] (pyJoin [c] l) = l := by
  induction l with
  | nil => exact absurd rfl hne
  | cons x l ih =>
    cases l with
    | nil => simpa [pySplit, pyJoin] using splitGo_char_end x (hl x List.mem_cons_self) []
    | cons y l =>
      rw [pyJoin, pySplit, List.append_assoc, List.singleton_append, splitGo_char x (hl x List.mem_cons_self) []]
      have := ih (by simp) fun z hz => hl z (List.mem_cons_of_mem _ hz)
      rw [pySplit] at this
      rw [this]; simp

theorem splitGo_two {c d : Char} (x : Str) (hx : c ∉ x) (cur rest : Str) :
    splitGo [c, d] 0 cur (x ++ c :: d :: rest) = (cur.reverse ++ x) :: splitGo [c, d] 0 [] rest := by
  induction x generalizing cur with
  | nil => simp [splitGo, List.isPrefixOf]
  | cons y x ih =>
    have hy : (c == y) = false := by
      simp only [beq_eq_false_iff_ne]; rintro rfl; exact hx List.mem_cons_self
    rw [List.cons_append, splitGo]
    simp only [List.isPrefixOf, hy, Bool.false_and, Bool.false_eq_true, if_false]
    rw [ih (fun h => hx (List.mem_cons_of_mem _ h))]
    simp

theorem splitGo_two_end {c d : Char} (x : Str) (hx : c ∉ x) (cur : Str) : splitGo [c, d] 0 cur x = [cur.reverse ++ x] := by
  induction x generalizing cur with
  | nil => simp [splitGo]
  | cons y x ih =>
    have hy : (c == y) = false := by
      simp only [beq_eq_false_iff_ne]; rintro rfl; exact hx List.mem_cons_self
    rw [splitGo]
    simp only [List.isPrefixOf, hy, Bool.false_and, Bool.false_eq_true, if_false]
    rw [ih (fun h => hx (List.mem_cons_of_mem _ h))]
    simp

theorem split_join_two {c d : Char} (l : List Str) (hne : l ≠ []) (hl : ∀ x ∈ l, c ∉ x) :
    pySplit [c, d] (pyJoin [c, d] l) = l := by
  induction l with
  | nil => exact absurd rfl hne
  | cons x l ih =>
    cases l with
    | nil => simpa [pySplit, pyJoin] using splitGo_two_end x (hl x List.mem_cons_self) []
    | cons y l =>
      rw [pyJoin, pySplit, List.append_assoc]
      show splitGo [c, d] 0 [] (x ++ c :: d :: pyJoin [c, d] (y :: l)) = _
      rw [splitGo_two x (hl x List.mem_cons_self) []]
      have := ih (by simp) fun z hz => hl z (List.mem_cons_of_mem _ hz)
      rw [pySplit] at this
      rw [this]; simp

theorem mem_pyJoin {c : Char} {sep : Str} {l : List Str} (h : c ∈ pyJoin sep l) : c ∈ sep ∨ ∃ x ∈ l, c ∈ x := by
  induction l with
  | nil => cases h
  | cons x l ih =>
    cases l with
    | nil => exact .inr ⟨x, List.mem_cons_self, h⟩
    | cons y l =>
      rw [pyJoin, List.mem_append, List.mem_append] at h
      rcases h with (h | h) | h
      · exact .inr ⟨x, List.mem_cons_self, h⟩
      · exact .inl h
      · rcases ih h with h | ⟨z, hz, h⟩
        · exact .inl h
        · exact .inr ⟨z, List.mem_cons_of_mem _ hz, h⟩

/-- Concatenated bracketed texts, without the outer brackets. -/
theorem strip_brackets (l : List Str) (hne : l ≠ []) :
    (((l.map fun x => '[' :: x ++ [']']).flatten).drop 1).dropLast = pyJoin [']', '['] l := by
  have key : ∀ l : List Str, l ≠ [] → ((l.map fun x => '[' :: x ++ [']']).flatten) = '[' :: pyJoin [']', '['] l ++ [']'] := by
    intro l
    induction l with
    | nil => exact fun h => absurd rfl h
    | cons x l ih =>
      intro _
      cases l with
      | nil => simp [pyJoin]
      | cons y l =>
        rw [List.map_cons, List.flatten_cons, ih (by simp), pyJoin]
        simp
  rw [key l hne]
  simp

end Verif
