import Verif.Props.Frame

/-!
# Exactly which names an equation read from rows can have (C86)
-/

set_option linter.unusedSectionVars false
set_option linter.unusedSimpArgs false

namespace Verif.Props
open Verif

variable {S : Type} [DecidableEq S] [Inhabited S]

/-- **C86** from whatever frame an equation is built, no name of another column is a part of the name of its left variable. -/
theorem C86_names_refused {L : LabelStore Str S} {nan : S} {df : RowTable S} {doms : Dom Str S} {left : Option Str} {f : DetFactor L}
    (h : DetFactor.fromFrame L nan df doms left = .ok f) {y : Str} (hy : RowTable.leftOr left df.columns = .ok y) :
    y ∈ df.columns ∧ ∀ w ∈ df.columns, w <:+: y → w = y := by
  rw [DetFactor.fromFrame, hy, py_ok_bind] at h
  rcases h2 : df.categories doms with e | ds
  · rw [h2] at h; cases h
  rw [h2, py_ok_bind] at h
  rcases h3 : subdomain doms df.columns with e | domf
  · simp only [h3] at h; cases h
  simp only [h3, py_ok_bind] at h
  have hkeys : Dict.keys domf = df.columns := by
    have hf := mapM_eq_ok h3
    clear h h3 h2 hy
    generalize df.columns = cs at hf
    induction hf with
    | nil => rfl
    | @cons v p _ _ hv _ ih =>
      have : p.1 = v := by
        cases e : Dict.get doms v with
        | error _ => rw [e] at hv; cases hv
        | ok s => rw [e] at hv; cases hv; rfl
      rw [Dict.keys, List.map_cons, this]
      exact congrArg _ ih
  by_cases hyc : y ∈ df.columns
  · refine ⟨hyc, fun w hw hwy => ?_⟩
    simp only [RowTable.column, if_pos hyc, py_ok_bind, DetFactor.make, Factor.setVariables, hkeys] at h
    by_contra hne
    split at h
    · cases h
    · rename_i hl
      obtain ⟨x, hx⟩ := List.length_eq_one_iff.1 (not_not.1 hl)
      have hnot : ∀ u ∈ df.columns, u <:+: y → u ∈ [x] := fun u hu hs => by
        rw [← hx]
        simp [hu, Uai.isSub, hs]
      exact hne ((List.mem_singleton.1 (hnot w hw hwy)).trans (List.mem_singleton.1 (hnot y hyc (List.infix_refl y))).symm)
  · simp only [RowTable.column, if_neg hyc] at h
    cases h

/-- **C86**, exactly, for frames that list a function with the left variable in the last column: an equation is built if and only if
no name of another column is a part of the name of the left variable, and then it computes every row. -/
theorem C86_exact (vt : VType) (nan : S) {df : RowTable S} {doms pa : Dom Str S} {y : Str} {ys : List S}
    (left : Option Str) (hl : left = none ∨ left = some y) (h : ListsFunction df doms pa y ys) :
    ((∃ f, DetFactor.fromFrame (labelStoreOf vt) nan df doms left = .ok f) ↔ ∀ v ∈ Dict.keys pa, ¬ v <:+: y) ∧
    ∀ f, DetFactor.fromFrame (labelStoreOf vt) nan df doms left = .ok f →
      ∀ c s, c ++ [s] ∈ df.rows → ∀ obs, (Dict.keys pa).map (Dict.get? obs) = c.map some → f.getValue obs = .ok s := by
  have hy : RowTable.leftOr left df.columns = .ok y := by
    rcases hl with rfl | rfl
    · simp [RowTable.leftOr, h.columns]
    · cases y with
      | nil => simp [RowTable.leftOr, h.columns]
      | cons c s => rfl
  have hname : ∀ f, DetFactor.fromFrame (labelStoreOf vt) nan df doms left = .ok f → ∀ v ∈ Dict.keys pa, ¬ v <:+: y := by
    intro f hf v hv hs
    have := (C86_names_refused hf hy).2 v (by rw [h.columns]; simp [hv]) hs
    have hk : Dict.keys (pa ++ [(y, ys)]) = Dict.keys pa ++ [y] := by simp [Dict.keys]
    exact (List.nodup_append.1 (hk ▸ h.dom.keys)).2.2 v hv y (by simp) this
  refine ⟨⟨fun ⟨f, hf⟩ => hname f hf, fun hn => ?_⟩, fun f hf => ?_⟩
  · obtain ⟨f, hf, _⟩ := C86_rows_partial vt nan left hl h hn
    exact ⟨f, hf⟩
  · obtain ⟨f', hf', _, _, _, _, hr⟩ := C86_rows_partial vt nan left hl h (hname f hf)
    rw [hf] at hf'
    cases hf'
    exact fun c s hc obs ho => (hr c s hc obs ho).1

/-- Both cases: the frame of `C86_example`, and the one of `C86_names`. -/
theorem C86_exact_example (vt : VType) :
    (∃ f, DetFactor.fromFrame (labelStoreOf vt) '?' frTable frDoms none = .ok f) ∧
    ¬ ∃ f, DetFactor.fromFrame (labelStoreOf vt) '?' ⟨[['X'], ['X', '1']], [['a', 'p'], ['b', 'q']]⟩
      [(['X'], ['a', 'b']), (['X', '1'], ['p', 'q'])] none = .ok f := by
  constructor
  · exact (C86_exact vt '?' none (.inl rfl) frTable_lists).1.2 (by decide)
  · rw [(C86_exact vt '?' none (.inl rfl) (C86_names vt).1).1]
    decide

end Verif.Props
