import Verif.Model.Build
import Verif.Model.Denote
import Verif.Props.Factors
import Mathlib.Data.Rat.Defs
import Mathlib.Algebra.Order.Field.Rat

/-!
# An example network

`A → B → C → D`, with three states for `C` and a zero in the table of `B`.  Used to show that the hypotheses of the
theorems on models and inference can be met.
-/

set_option linter.unusedSectionVars false
set_option linter.unusedSimpArgs false

namespace Verif.Props
open Verif

/-- The table of a node: its domain, its values, and the node. -/
abbrev Row := Dom Char Char × List (Fl ℚ) × Char

/-- The store of type `vt` with rational numbers as values. -/
abbrev IQ (vt : VType) : StoreImpl Char Char (Fl ℚ) := storeOf vt

/-- Tables from rows. -/
def tablesOf (vt : VType) (rows : List Row) : Py (List (Factor (IQ vt))) :=
  rows.mapM fun r => Factor.make (IQ vt) r.1 r.2.1 (some [r.2.2]) none

/-- A model from rows. -/
def netOf (vt : VType) (g : DiGraph Char) (rows : List Row) :
    Py (DagModel (Factor (IQ vt)) Char Char) := do
  let fs ← tablesOf vt rows
  DagModel.ofList g fs true

/-- What is evaluated to show that the model is a network of non-negative, normalised tables. -/
def netCheck (vt : VType) (g : DiGraph Char) (rows : List Row) : Bool :=
  match netOf vt g rows with
  | .ok m => DagModel.allOk (IQ vt) m && decide (m.graph = g)
  | .error _ => false

instance {V S : Type} [DecidableEq V] [DecidableEq S] (d : Dom V S) : Decidable (DomOk d) :=
  decidable_of_iff ((Dict.keys d).Nodup ∧ (∀ p ∈ d, p.2.Nodup) ∧ ∀ p ∈ d, p.2 ≠ [])
    ⟨fun h => ⟨h.1, h.2.1, h.2.2⟩, fun h => ⟨h.keys, h.states, h.nonempty⟩⟩

theorem mapM_mem {X Y : Type} {f : X → Py Y} {l : List X} {ys : List Y} (h : l.mapM f = .ok ys) :
    ∀ y ∈ ys, ∃ x ∈ l, f x = .ok y := by
  induction l generalizing ys with
  | nil => injection h with h; subst h; simp
  | cons x l ih =>
    rw [List.mapM_cons] at h
    cases hx : f x with
    | error e => rw [hx] at h; cases h
    | ok y =>
      rw [hx] at h
      simp only [py_ok_bind] at h
      cases hl : l.mapM f with
      | error e => rw [hl] at h; cases h
      | ok zs =>
        rw [hl] at h
        injection h with h
        subst h
        intro z hz
        rcases List.mem_cons.1 hz with rfl | hz
        · exact ⟨x, List.mem_cons_self, hx⟩
        · obtain ⟨w, hw, h⟩ := ih hl z hz
          exact ⟨w, List.mem_cons_of_mem _ hw, h⟩

theorem netOf_spec {vt : VType} {g : DiGraph Char} {rows : List Row} (hd : ∀ r ∈ rows, DomOk r.1)
    (h : netCheck vt g rows = true) :
    ∃ m, netOf vt g rows = .ok m ∧ m.graph = g ∧ Represents m (BN.ofModel (IQ vt) m) ∧
      (BN.ofModel (IQ vt) m : BN Char Char ℚ).Valid ∧ (BN.ofModel (IQ vt) m : BN Char Char ℚ).Normalised ∧
      (BN.ofModel (IQ vt) m : BN Char Char ℚ).NonNeg := by
  rw [netCheck] at h
  cases hm : netOf vt g rows with
  | error e => rw [hm] at h; cases h
  | ok m =>
    rw [hm] at h
    simp only [Bool.and_eq_true, decide_eq_true_eq] at h
    have hw : DagModel.FactorsWF (IQ vt) m := by
      intro v f g' hf hv
      injection hv with hv
      subst hv
      rw [netOf] at hm
      cases ht : tablesOf vt rows with
      | error e => rw [ht] at hm; cases hm
      | ok fs =>
        rw [ht] at hm
        obtain ⟨r, hr, hmk⟩ := mapM_mem ht _ (DagModel.ofList_factors hm hf)
        exact (wf_of_make vt (hd r hr) hmk).1
    exact ⟨m, rfl, h.2, allOk_spec (storeOf_lawful vt) hw h.1⟩

/-- `A → B → C → D` -/
def gEx : DiGraph Char := ⟨['A', 'B', 'C', 'D'], [('A', 'B'), ('B', 'C'), ('C', 'D')]⟩

def q (x : ℚ) : Fl ℚ := .fin x

def rowsEx : List Row :=
  [([('A', ['a', 'b'])], [q (1/2), q (1/2)], 'A'),
   ([('B', ['a', 'b']), ('A', ['a', 'b'])], [q 1, q (1/4), q 0, q (3/4)], 'B'),
   ([('C', ['c', 'd', 'e']), ('B', ['a', 'b'])], [q (1/3), q (1/6), q (1/3), q (1/3), q (1/3), q (1/2)], 'C'),
   ([('C', ['c', 'd', 'e']), ('D', ['a', 'b'])], [q (1/5), q (4/5), q (2/5), q (3/5), q 1, q 0], 'D')]

theorem netCheck_ex (vt : VType) : netCheck vt gEx rowsEx = true := by
  cases vt <;> decide +kernel

/-- The example network, in every store. -/
theorem ex_net (vt : VType) :
    ∃ m, netOf vt gEx rowsEx = .ok m ∧ m.graph = gEx ∧ Represents m (BN.ofModel (IQ vt) m) ∧
      (BN.ofModel (IQ vt) m : BN Char Char ℚ).Valid ∧ (BN.ofModel (IQ vt) m : BN Char Char ℚ).Normalised ∧
      (BN.ofModel (IQ vt) m : BN Char Char ℚ).NonNeg :=
  netOf_spec (by decide) (netCheck_ex vt)

end Verif.Props
