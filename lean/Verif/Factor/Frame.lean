import Verif.Factor.Canonical
import Verif.IO.Uai
import Verif.Learn.DataLemmas
import Mathlib.Data.List.Sort

/-!
# Structural equations from tables of rows

`DeterministicFactor.from_data_frame` (`bcause/factors/deterministic.py:43-55`).
-/

set_option linter.unusedSectionVars false
set_option linter.unusedSimpArgs false

namespace Verif

/-- A `DataFrame`: the names of its columns and its rows (`deterministic.py:44`). Column names are distinct strings. -/
structure RowTable (S : Type) where
  columns : List Str
  rows : List (List S)

namespace RowTable
variable {S : Type} [DecidableEq S]

/-- `deterministic.py:48-49`: the categories of every column. `domains[v]` raises `KeyError`, `pd.Categorical` raises
`ValueError` when the categories repeat. -/
def categories (doms : Dom Str S) (df : RowTable S) : Py (List (List S)) :=
  df.columns.mapM fun v => do
    let d ← Dict.get doms v
    if ¬ d.Nodup then throw .valueError
    return d

/-- `pd.Categorical` (`deterministic.py:49`) on a cell: what is not a category becomes `nan` -/
def asCategory (nan : S) (x : S) (d : List S) : S := if x ∈ d then x else nan

/-- `deterministic.py:48-49` on the rows. The columns are assigned in the frame of the caller, so these are also the
rows that the caller sees afterwards. -/
def cast (nan : S) (ds : List (List S)) (rows : List (List S)) : List (List S) :=
  rows.map fun r => List.zipWith (asCategory nan) r ds

/-- The codes of a row: the position of each cell among the categories of its column; `nan` is placed last
(`na_position='last'` of `sort_values`). -/
def codes (ds : List (List S)) (r : List S) : List Nat := List.zipWith (fun x d => d.idxOf x) r ds

/-- Order of lists by the first position in which they differ -/
def lexLe : List Nat → List Nat → Bool
  | [], _ => true
  | _ :: _, [] => false
  | a :: as, b :: bs => a < b || (a == b && lexLe as bs)

/-- Order of rows by their codes -/
def RowLe (ds : List (List S)) (r s : List S) : Prop := lexLe (codes ds r) (codes ds s) = true

instance (ds : List (List S)) : DecidableRel (RowLe ds) := fun r s =>
  inferInstanceAs (Decidable (lexLe (codes ds r) (codes ds s) = true))

/-- `deterministic.py:51` `df.sort_values(by=columns)`: rows with the same codes have the same cells, so that it
does not matter whether the algorithm is stable. -/
def sortRows (ds : List (List S)) (rows : List (List S)) : List (List S) :=
  rows.insertionSort (RowLe ds)

/-- `deterministic.py:46`: `left_var or columns[-1]` -/
def leftOr (left : Option Str) (columns : List Str) : Py Str :=
  match left with
  | some (c :: s) => .ok (c :: s)
  | _ => match columns.getLast? with
    | some v => .ok v
    | none => .error .indexError

/-- `deterministic.py:54` `df[left_var].values` -/
def column (nan : S) (columns : List Str) (rows : List (List S)) (y : Str) : Py (List S) :=
  if y ∈ columns then .ok (rows.map fun r => r.getD (columns.idxOf y) nan) else .error .keyError

end RowTable

/-- `deterministic.py:43-55` `from_data_frame`. The left variable is given to the constructor as a string, so the test
`v not in left_vars` of `factor.py:150` is a test for a part of the string. -/
def DetFactor.fromFrame {S : Type} [DecidableEq S] (L : LabelStore Str S) (nan : S) (df : RowTable S) (doms : Dom Str S)
    (left : Option Str) : Py (DetFactor L) := do
  let y ← RowTable.leftOr left df.columns
  let ds ← df.categories doms
  let rows := RowTable.sortRows ds (RowTable.cast nan ds df.rows)
  let domf ← subdomain doms df.columns
  let values ← RowTable.column nan df.columns rows y
  DetFactor.make L domf ⟨[values.length], values⟩ none (some ((Dict.keys domf).filter fun w => !Uai.isSub w y))

namespace RowTable
variable {S : Type} [DecidableEq S]

theorem lexLe_refl (a : List Nat) : lexLe a a = true := by
  induction a with
  | nil => rfl
  | cons x a ih => simp [lexLe, ih]

theorem lexLe_total (a b : List Nat) : (lexLe a b || lexLe b a) = true := by
  induction a generalizing b with
  | nil => simp [lexLe]
  | cons x a ih =>
    cases b with
    | nil => simp [lexLe]
    | cons y b =>
      have := ih b
      simp only [lexLe, Bool.or_eq_true, decide_eq_true_eq, Bool.and_eq_true, beq_iff_eq] at *
      rcases lt_trichotomy x y with h | h | h
      · exact .inl (.inl h)
      · rcases this with h2 | h2
        · exact .inl (.inr ⟨h, h2⟩)
        · exact .inr (.inr ⟨h.symm, h2⟩)
      · exact .inr (.inl h)

theorem lexLe_trans {a b c : List Nat} (h1 : lexLe a b = true) (h2 : lexLe b c = true) : lexLe a c = true := by
  induction a generalizing b c with
  | nil => simp [lexLe]
  | cons x a ih =>
    cases b with
    | nil => simp [lexLe] at h1
    | cons y b =>
      cases c with
      | nil => simp [lexLe] at h2
      | cons z c =>
        simp only [lexLe, Bool.or_eq_true, decide_eq_true_eq, Bool.and_eq_true, beq_iff_eq] at *
        rcases h1 with h1 | ⟨e1, h1⟩ <;> rcases h2 with h2 | ⟨e2, h2⟩
        · exact .inl (h1.trans h2)
        · exact .inl (e2 ▸ h1)
        · exact .inl (e1 ▸ h2)
        · exact .inr ⟨e1.trans e2, ih h1 h2⟩

theorem lexLe_antisymm {a b : List Nat} (h1 : lexLe a b = true) (h2 : lexLe b a = true) : a = b := by
  induction a generalizing b with
  | nil => cases b with
    | nil => rfl
    | cons y b => simp [lexLe] at h2
  | cons x a ih =>
    cases b with
    | nil => simp [lexLe] at h1
    | cons y b =>
      simp only [lexLe, Bool.or_eq_true, decide_eq_true_eq, Bool.and_eq_true, beq_iff_eq] at *
      rcases h1 with h1 | ⟨e1, h1⟩ <;> rcases h2 with h2 | ⟨e2, h2⟩
      · omega
      · omega
      · omega
      · rw [e1, ih h1 h2]

/-- The order of the beginnings -/
theorem lexLe_prefix {a b c d : List Nat} (hl : a.length = b.length) (h : lexLe (a ++ c) (b ++ d) = true) :
    lexLe a b = true := by
  induction a generalizing b with
  | nil => simp [lexLe]
  | cons x a ih =>
    cases b with
    | nil => simp at hl
    | cons y b =>
      simp only [List.cons_append, lexLe, Bool.or_eq_true, decide_eq_true_eq, Bool.and_eq_true, beq_iff_eq] at *
      exact h.imp id fun h => ⟨h.1, ih (by simpa using hl) h.2⟩

theorem codes_inj {ds : List (List S)} {r s : List S} (hr : List.Forall₂ (fun x d => x ∈ d) r ds)
    (hs : List.Forall₂ (fun x d => x ∈ d) s ds) (h : codes ds r = codes ds s) : r = s := by
  induction hr generalizing s with
  | nil => cases hs; rfl
  | @cons x d r ds hx hr ih =>
    cases hs with
    | @cons y _ s _ hy hs =>
      simp only [codes, List.zipWith_cons_cons, List.cons.injEq] at h
      rw [ih hs h.2, (List.idxOf_inj hx).1 h.1]

/-- The cartesian product is listed in the order of the codes. -/
theorem pairwise_product {ds : List (List S)} (hd : ∀ d ∈ ds, d.Nodup) :
    (product ds).Pairwise fun r s => lexLe (codes ds r) (codes ds s) = true := by
  induction ds with
  | nil => simp [product]
  | cons d ds ih =>
    have hd' := fun e he => hd e (List.mem_cons_of_mem _ he)
    have hn := hd d List.mem_cons_self
    simp only [product]
    rw [List.pairwise_flatMap]
    refine ⟨fun x hx => ?_, ?_⟩
    · rw [List.pairwise_map]
      exact (ih hd').imp fun {r s} h => by simpa [codes, lexLe] using h
    · have hlt : d.Pairwise fun x y => d.idxOf x < d.idxOf y := by
        rw [List.pairwise_iff_getElem]
        intro i j hi hj hij
        rw [hn.idxOf_getElem, hn.idxOf_getElem]
        exact hij
      refine hlt.imp fun {x y} hxy => ?_
      intro r hr s hs
      obtain ⟨r, _, rfl⟩ := List.mem_map.1 hr
      obtain ⟨s, _, rfl⟩ := List.mem_map.1 hs
      simp [codes, lexLe, hxy]

theorem pairwise_sortRows (ds : List (List S)) (rows : List (List S)) :
    (sortRows ds rows).Pairwise fun r s => lexLe (codes ds r) (codes ds s) = true := by
  have : Std.Total (RowLe ds) := ⟨fun a b => by simpa [RowLe] using lexLe_total (codes ds a) (codes ds b)⟩
  have : IsTrans _ (RowLe ds) := ⟨fun a b c h1 h2 => lexLe_trans h1 h2⟩
  exact List.pairwise_insertionSort (RowLe ds) rows

theorem cast_eq {nan : S} {ds : List (List S)} {rows : List (List S)}
    (h : ∀ r ∈ rows, List.Forall₂ (fun x d => x ∈ d) r ds) : cast nan ds rows = rows := by
  rw [cast]
  conv_rhs => rw [← List.map_id rows]
  refine List.map_congr_left fun r hr => ?_
  have h1 := h r hr
  clear h hr
  induction h1 with
  | nil => rfl
  | cons hx _ ih => simpa [asCategory, hx] using ih

/-- Rows with one row for every configuration of the first columns, sorted: the configurations come in the order of
the state space. -/
theorem sorted_prefixes {ds : List (List S)} {d : List S} {rows : List (List S)} (hd : ∀ e ∈ ds, e.Nodup)
    (hr : ∀ r ∈ rows, List.Forall₂ (fun x e => x ∈ e) r (ds ++ [d]))
    (hp : (rows.map List.dropLast).Perm (product ds)) :
    (sortRows (ds ++ [d]) rows).map List.dropLast = product ds := by
  have hperm : (sortRows (ds ++ [d]) rows).Perm rows := List.perm_insertionSort _ _
  have hsplit : ∀ r ∈ sortRows (ds ++ [d]) rows, ∃ r0 x, r = r0 ++ [x] ∧ List.Forall₂ (fun x e => x ∈ e) r0 ds := by
    intro r h
    have := hr r (hperm.mem_iff.1 h)
    obtain ⟨r0, r1, h0, h1, rfl⟩ : ∃ r0 r1, List.Forall₂ (fun x e => x ∈ e) r0 ds ∧
        List.Forall₂ (fun x e => x ∈ e) r1 [d] ∧ r = r0 ++ r1 := by
      refine ⟨r.take ds.length, r.drop ds.length, ?_, ?_, (List.take_append_drop _ _).symm⟩
      · simpa using List.forall₂_take ds.length this
      · simpa using List.forall₂_drop ds.length this
    cases h1 with
    | @cons x _ r1 _ hx h1 => cases h1; exact ⟨r0, x, rfl, h0⟩
  refine List.Perm.eq_of_pairwise (le := fun r s => lexLe (codes ds r) (codes ds s) = true) ?_ ?_
    (pairwise_product hd) ((hperm.map _).trans hp)
  · intro a b ha hb h1 h2
    refine codes_inj (ds := ds) ?_ (mem_product.1 hb) (lexLe_antisymm h1 h2)
    exact mem_product.1 (((hperm.map _).trans hp).mem_iff.1 ha)
  · rw [List.pairwise_map]
    refine (pairwise_sortRows _ _).imp_of_mem fun {r s} hr hs h => ?_
    obtain ⟨r, x, rfl, h0⟩ := hsplit r hr
    obtain ⟨s, y, rfl, h1⟩ := hsplit s hs
    simp only [List.dropLast_concat]
    have e : ∀ {r : List S} {x : S}, List.Forall₂ (fun x e => x ∈ e) r ds →
        codes (ds ++ [d]) (r ++ [x]) = codes ds r ++ [d.idxOf x] := by
      intro r x h
      simp [codes, List.zipWith_append h.length_eq]
    rw [e h0, e h1] at h
    refine lexLe_prefix ?_ h
    simp [codes, h0.length_eq, h1.length_eq]

end RowTable
end Verif
