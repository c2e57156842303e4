import Verif.Props.Multi

/-!
# Exactly when learning objects and models correspond with threads (C53)
-/

set_option linter.unusedSectionVars false
set_option linter.unusedSimpArgs false

namespace Verif.Props
open Verif

section
variable {M R : Type} {model : R → M}

theorem getElem?_finished {rs : List R} : ∀ {order : List Nat}, (∀ i ∈ order, i < rs.length) → ∀ k : Nat,
    (order.filterMap fun i => rs[i]?)[k]? = order[k]?.bind fun i => rs[i]?
  | [], _, k => by simp
  | i :: order, h, k => by
    have hi : rs[i]? = some (rs[i]'(h i (by simp))) := List.getElem?_eq_getElem _
    rw [List.filterMap_cons, hi]
    cases k with
    | zero => simp [hi]
    | succ k =>
      simp only [List.getElem?_cons_succ]
      exact getElem?_finished (fun j hj => h j (by simp [hj])) k

/-- **C53**, exactly: with threads, learning objects and models correspond if and only if the run that finishes as the `k`-th learned the
same model as the one that was started as the `k`-th. -/
theorem C53_exact {s s' : Aggregator M R} (hs : Corresponds model s) {rs : List R} {order : List Nat}
    (ho : order.Perm (List.range rs.length)) (h : s.runPar model rs order = .ok s') :
    Corresponds model s' ↔ ∀ k i : Nat, order[k]? = some i → (rs[i]?).map model = (rs[k]?).map model := by
  have hl : order.length = rs.length := by simpa using ho.length_eq
  have hin : ∀ i ∈ order, i < rs.length := fun i hi => List.mem_range.1 (ho.mem_iff.1 hi)
  have hs' : s' = ⟨s.models ++ rs.map model, s.objects ++ order.filterMap fun i => rs[i]?⟩ := by
    rw [Aggregator.runPar] at h
    split at h
    · cases h
    · injection h with h; exact h.symm
  rw [Corresponds] at hs
  rw [hs', Corresponds, List.map_append, ← hs, List.append_cancel_left_eq, List.ext_getElem?_iff]
  simp only [List.getElem?_map, getElem?_finished hin]
  constructor
  · intro h k i hk
    rw [h k, hk]
    rfl
  · intro h k
    cases hk : order[k]? with
    | none =>
      rw [List.getElem?_eq_none_iff, hl] at hk
      rw [List.getElem?_eq_none_iff.2 hk]
      rfl
    | some i => exact (h k i hk).symm

/-- **C53** if all runs learn different models: only when the threads finish in the order in which they were started. -/
theorem C53_exact_distinct {s s' : Aggregator M R} (hs : Corresponds model s) {rs : List R} (hd : (rs.map model).Nodup) {order : List Nat}
    (ho : order.Perm (List.range rs.length)) (h : s.runPar model rs order = .ok s') :
    Corresponds model s' ↔ order = List.range rs.length := by
  have hl : order.length = rs.length := by simpa using ho.length_eq
  rw [C53_exact hs ho h]
  constructor
  · intro h
    refine List.ext_getElem (by simpa using hl) fun k hk _ => ?_
    have hi : order[k] < rs.length := List.mem_range.1 (ho.mem_iff.1 (List.getElem_mem hk))
    have e := h k order[k] (List.getElem?_eq_getElem hk)
    rw [List.getElem_range]
    rw [← List.getElem?_map, ← List.getElem?_map] at e
    exact (List.getElem?_inj (by simpa using hi) hd).1 e
  · rintro rfl k i hk
    rw [List.getElem?_eq_some_iff] at hk
    obtain ⟨hk, e⟩ := hk
    rw [List.getElem_range] at e
    rw [e]

/-- Three runs of which the first and the last learn the same model: these may finish in exchanged order, the others not. -/
theorem C53_exact_example :
    (∃ s, (Aggregator.reset : Aggregator Nat Nat).runPar (· % 2) [1, 2, 3] [2, 1, 0] = .ok s ∧ Corresponds (· % 2) s) ∧
    ∃ s, (Aggregator.reset : Aggregator Nat Nat).runPar (· % 2) [1, 2, 3] [1, 0, 2] = .ok s ∧ ¬ Corresponds (· % 2) s :=
  ⟨⟨_, rfl, by unfold Corresponds; decide⟩, ⟨_, rfl, by unfold Corresponds; decide⟩⟩

end
end Verif.Props
