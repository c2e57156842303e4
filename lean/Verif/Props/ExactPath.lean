import Verif.Props.Files

/-!
# Exactly which spellings of a path name the same file (C88)
-/

set_option linter.unusedSectionVars false
set_option linter.unusedSimpArgs false

namespace Verif.Props
open Verif Verif.Files

/-- The path written with these parts. -/
def spelled (ps : List Str) : Str := pyJoin ['/'] ps

/-- A part that says something. -/
def Says (p : Str) : Bool := decide (p ≠ [] ∧ p ≠ ['.'])

theorem head_spelled {x : Str} {l : List Str} (hx : '/' ∉ x) (h : x ≠ [] ∨ l = []) : ((spelled (x :: l)).head? == some '/') = false := by
  cases x with
  | nil => rw [h.resolve_left (by simp)]; rfl
  | cons c x =>
    have hc : c ≠ '/' := fun e => hx (by simp [e])
    cases l with
    | nil => simpa [spelled, pyJoin] using hc
    | cons y l => simpa [spelled, pyJoin] using hc

/-- **C88** the parts of a path are those that say something: empty parts and `.` are dropped, all others are kept, also `..`. -/
theorem C88_parts {ps : List Str} (hne : ps ≠ []) (hs : ∀ p ∈ ps, '/' ∉ p) : (Path.ofStr (spelled ps)).parts = ps.filter Says := by
  rw [Path.ofStr, spelled]
  show (pySplit ['/'] (pyJoin ['/'] ps)).filter _ = _
  rw [split_join_char ps hne hs]
  rfl

/-- **C88**, exactly: two relative spellings name the same file, from any working directory, if and only if they have the same parts that
say something. (A spelling is relative if its first part is not empty, or is the only one. `..` and links are not resolved.) -/
theorem C88_same_file {d : Disk} {x y : Str} {l l' : List Str} (h : ∀ p ∈ x :: l, '/' ∉ p) (h' : ∀ p ∈ y :: l', '/' ∉ p)
    (hr : x ≠ [] ∨ l = []) (hr' : y ≠ [] ∨ l' = []) :
    place d (spelled (x :: l)) = place d (spelled (y :: l')) ↔ (x :: l).filter Says = (y :: l').filter Says := by
  have e : ∀ {x : Str} {l : List Str}, (∀ p ∈ x :: l, '/' ∉ p) → (x ≠ [] ∨ l = []) →
      place d (spelled (x :: l)) = d.cwd ++ (x :: l).filter Says := by
    intro x l h hr
    have ha : (Path.ofStr (spelled (x :: l))).abs = false := head_spelled (h x (by simp)) hr
    rw [place, Path.absolute, ha, C88_parts (by simp) h]
    rfl
  rw [e h hr, e h' hr', List.append_cancel_left_eq]

/-- **C88** absolute spellings: the same file, if and only if the same parts, and the working directory does not matter. (Two leading
slashes are taken as one, as on Linux.) -/
theorem C88_same_absolute {d d' : Disk} {l l' : List Str} (hl : l ≠ []) (hl' : l' ≠ []) (h : ∀ p ∈ l, '/' ∉ p) (h' : ∀ p ∈ l', '/' ∉ p) :
    place d (spelled ([] :: l)) = place d' (spelled ([] :: l')) ↔ l.filter Says = l'.filter Says := by
  have e : ∀ {d : Disk} {l : List Str}, l ≠ [] → (∀ p ∈ l, '/' ∉ p) → place d (spelled ([] :: l)) = l.filter Says := by
    intro d l hl h
    have ha : (Path.ofStr (spelled ([] :: l))).abs = true := by
      obtain ⟨y, l, rfl⟩ := List.exists_cons_of_ne_nil hl
      rfl
    rw [place, Path.absolute, ha, C88_parts (by simp) (fun p hp => (List.mem_cons.1 hp).elim (fun e => by rw [e]; simp) (h p))]
    rfl
  rw [e hl h, e hl' h']

/-- Spellings of the same file, and of two files: `..` is not taken away. -/
theorem C88_same_example (d : Disk) :
    place d "./a//m.uai".toList = place d "a/m.uai".toList ∧ place d "b/../m.uai".toList ≠ place d "m.uai".toList ∧
    place d "/a/./m.uai".toList = ["a".toList, "m.uai".toList] := by
  refine ⟨?_, ?_, ?_⟩
  · exact (C88_same_file (x := ['.']) (l := [['a'], [], "m.uai".toList]) (y := ['a']) (l' := ["m.uai".toList]) (by decide) (by decide)
      (.inl (by decide)) (.inl (by decide))).2 (by decide)
  · exact fun h => absurd ((C88_same_file (x := ['b']) (l := [['.', '.'], "m.uai".toList]) (y := "m.uai".toList) (l' := []) (by decide) (by decide)
      (.inl (by decide)) (.inl (by decide))).1 h) (by decide)
  · rfl

end Verif.Props
