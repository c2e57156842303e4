import Verif.Props.ExNet
import Verif.Factor.Lemmas

/-!
# Reading a factor with an incomplete observation (C71)

`get_value` of the four stores agrees for complete observations only.
-/

set_option linter.unusedSectionVars false
set_option linter.unusedSimpArgs false

namespace Verif.Props
open Verif

section
variable {V S α : Type} [DecidableEq V] [DecidableEq S] [Inhabited α] [AddCommMonoid α]

/-- The variables that are not observed, with their states. -/
def unobserved (d : Dom V S) (o : Obs V S) : Dom V S := d.filter fun p => p.1 ∉ Dict.keys o

/-- The observation completed with the first state of each variable that is not observed. -/
def completed (d : Dom V S) (o : Obs V S) : Obs V S :=
  o ++ (unobserved d o).filterMap fun p => p.2.head?.map fun s => (p.1, s)

theorem ravel_zeros (c : List ℕ) {l : List ℕ} (h : ∀ i ∈ l, i = 0) : ravel c l = 0 := by
  induction c generalizing l with
  | nil => simp
  | cons n c ih =>
    cases l with
    | nil => simp [ravel, dot]
    | cons i l =>
      rw [ravel_cons, h i List.mem_cons_self, ih fun j hj => h j (List.mem_cons_of_mem _ hj)]
      simp

/-- The assignment of the completed observation. -/
theorem exists_completed [Nonempty S] {d : Dom V S} (hd : DomOk d) {o : Obs V S} (ho : ObsOk d o) :
    ∃ a : V → S, InDom d a ∧ Covers d (completed d o) a ∧ (∀ v ∈ Dict.keys d, over o a v = a v) ∧
      ∀ i ∈ coords (unobserved d o) a, i = 0 := by
  classical
  have hk : ∀ p ∈ d, p.1 ∉ Dict.keys o → ∀ s, p.2.head? = some s → Dict.get? (completed d o) p.1 = some s := by
    intro p hp hpo s hs
    have hkn : (Dict.keys ((unobserved d o).filterMap fun p => p.2.head?.map fun s => (p.1, s))).Nodup := by
      have : ∀ e : Dom V S, (Dict.keys (e.filterMap fun p => p.2.head?.map fun s => (p.1, s))).Sublist (Dict.keys e) := by
        intro e
        induction e with
        | nil => exact .slnil
        | cons q e ih =>
          rw [List.filterMap_cons]
          cases q.2.head? with
          | none => exact ih.cons _
          | some t => exact ih.cons_cons _
      exact ((this _).nodup (((List.filter_sublist (l := d)).map Prod.fst).nodup hd.keys))
    rw [completed, Dict.get?_append, Dict.get?_eq_none.2 hpo]
    exact Dict.get?_of_mem (k := p.1) (v := s) hkn (List.mem_filterMap.2 ⟨p, List.mem_filter.2 ⟨hp, by simpa using hpo⟩, by rw [hs]; rfl⟩)
  have hk' : ∀ v s, Dict.get? o v = some s → Dict.get? (completed d o) v = some s := by
    intro v s h
    rw [completed, Dict.get?_append, h]; rfl
  refine ⟨fun v => (Dict.get? (completed d o) v).getD (Classical.arbitrary S), ?_, ?_, ?_, ?_⟩
  · intro p hp
    show (Dict.get? (completed d o) p.1).getD _ ∈ p.2
    cases h : Dict.get? o p.1 with
    | some s => rw [hk' _ _ h]; exact ho p hp s h
    | none =>
      cases hh : p.2 with
      | nil => exact absurd hh (hd.nonempty p hp)
      | cons s l =>
        rw [hk p hp (Dict.get?_eq_none.1 h) s (by rw [hh]; rfl)]
        exact List.mem_cons_self
  · intro v hv
    obtain ⟨p, hp, rfl⟩ := List.mem_map.1 hv
    show _ = some ((Dict.get? (completed d o) p.1).getD _)
    cases h : Dict.get? o p.1 with
    | some s => rw [hk' _ _ h]; rfl
    | none =>
      cases hh : p.2 with
      | nil => exact absurd hh (hd.nonempty p hp)
      | cons s l => rw [hk p hp (Dict.get?_eq_none.1 h) s (by rw [hh]; rfl)]; rfl
  · intro v hv
    cases h : Dict.get? o v with
    | some s =>
      rw [over_of_get? h]
      show s = (Dict.get? (completed d o) v).getD _
      rw [hk' _ _ h]; rfl
    | none => rw [over_of_not_mem (Dict.get?_eq_none.1 h)]
  · intro i hi
    obtain ⟨p, hp, rfl⟩ := List.mem_map.1 hi
    obtain ⟨hp, hpo⟩ := List.mem_filter.1 hp
    show p.2.idxOf ((Dict.get? (completed d o) p.1).getD _) = 0
    cases hh : p.2 with
    | nil => exact absurd hh (hd.nonempty p hp)
    | cons s l =>
      rw [hk p hp (by simpa using hpo) s (by rw [hh]; rfl)]
      exact List.idxOf_cons_self

theorem flat_read [Nonempty S] {s : FlatStore V S α} (hs : s.WF) {o : Obs V S} (ho : ObsOk s.dom o) :
    s.getValue o = s.getValue (completed s.dom o) := by
  obtain ⟨a, a1, a2, a3, a4⟩ := exists_completed hs.dom ho
  obtain ⟨r, r1, r2, r3, r4⟩ := FlatStore.restrict_ok hs ho
  rw [FlatStore.getValue_ok hs a1 a2]
  have hrd : InDom r.dom a := fun p hp => a1 p (by rw [r3] at hp; exact (List.mem_filter.1 hp).1)
  have e := r4 a hrd
  rw [FlatStore.sem_congr a3, FlatStore.sem, ravel_zeros _ (by rw [r3]; exact a4)] at e
  rw [FlatStore.getValue, r1, py_ok_bind]
  cases hr : r.data with
  | nil =>
    have := r2.len
    rw [hr] at this
    have h0 : (cards r.dom).prod ≠ 0 := by
      rw [ne_eq, List.prod_eq_zero_iff]
      intro h
      obtain ⟨p, hp, he⟩ := List.mem_map.1 h
      exact r2.dom.nonempty p hp (List.length_eq_zero_iff.1 he)
    exact absurd this.symm h0
  | cons x l =>
    rw [hr] at e
    show Except.ok x = _
    rw [← e]
    rfl

theorem numpy_read [Nonempty S] {s : NumpyStore V S α} (hs : s.WF) {o : Obs V S} (ho : ObsOk s.dom o) :
    ((unobserved s.dom o).length ≤ 1 → s.getValue o = s.getValue (completed s.dom o)) ∧
    (2 ≤ (unobserved s.dom o).length → s.getValue o = .error .notScalar) := by
  obtain ⟨a, a1, a2, a3, a4⟩ := exists_completed hs.dom ho
  obtain ⟨r, r1, r2, r3, r4⟩ := NumpyStore.restrict_ok hs ho
  have hrd : InDom r.dom a := fun p hp => a1 p (by rw [r3] at hp; exact (List.mem_filter.1 hp).1)
  have e := r4 a hrd
  rw [NumpyStore.sem_congr a3, NumpyStore.sem, NdArray.get, ravel_zeros _ (by rw [r3]; exact a4)] at e
  have hlen : r.data.shape.length = (unobserved s.dom o).length := by rw [r2.shape, r3]; simp [cards, unobserved]
  have hne : r.data.flat ≠ [] := by
    intro h
    have h1 := r2.data
    rw [NdArray.WF, h, r2.shape] at h1
    have h0 : (cards r.dom).prod ≠ 0 := by
      rw [ne_eq, List.prod_eq_zero_iff]
      intro h
      obtain ⟨p, hp, he⟩ := List.mem_map.1 h
      exact r2.dom.nonempty p hp (List.length_eq_zero_iff.1 he)
    exact h0 h1.symm
  rw [NumpyStore.getValue, r1, py_ok_bind]
  constructor
  · intro h
    rw [NumpyStore.getValue_ok hs a1 a2, ← e]
    rcases hsh : r.data.shape with _ | ⟨n, _ | ⟨m, l⟩⟩
    · cases hf : r.data.flat with
      | nil => exact absurd hf hne
      | cons x l => rfl
    · cases hf : r.data.flat with
      | nil => exact absurd hf hne
      | cons x l => rfl
    · rw [hsh] at hlen; simp at hlen; omega
  · intro h
    rcases hsh : r.data.shape with _ | ⟨n, _ | ⟨m, l⟩⟩
    · rw [hsh] at hlen; simp at hlen; omega
    · rw [hsh] at hlen; simp at hlen; omega
    · cases hf : r.data.flat with
      | nil => exact absurd hf hne
      | cons x l => rfl

theorem tree_read [Nonempty S] {s : TreeStore V S α} (hs : s.WF) {o : Obs V S} (ho : ObsOk s.dom o)
    (hu : unobserved s.dom o ≠ []) : s.getValue o = .error .notScalar := by
  obtain ⟨r, r1, r2, r3, r4⟩ := TreeStore.restrict_ok hs ho
  rw [TreeStore.getValue, r1, py_ok_bind]
  cases hr : r.data with
  | node v l => rfl
  | leaf x =>
    exfalso
    have := r2.full
    rw [hr, r3] at this
    rw [Tree.Full] at this
    exact hu (List.map_eq_nil_iff.1 this)

/-- **C71** `get_value` when some variables of the factor are not observed.  With the types `list` and `numpy1d` these get
their first states.  With `numpy` this is so for one such variable; for two or more the result is not a number but an array.
With `treedict` the result is never a number. -/
theorem C71_incomplete_observation [Nonempty S] (vt : VType) {f : Factor (storeOf vt : StoreImpl V S α)} (hf : f.WF) {o : Obs V S}
    (ho : ∀ p ∈ f.dom, ∀ s, Dict.get? o p.1 = some s → s ∈ p.2) (hu : unobserved f.dom o ≠ []) :
    f.getValue o = if vt = .treedict ∨ (vt = .numpy ∧ (unobserved f.dom o).length ≠ 1) then .error .notScalar
      else f.getValue (completed f.dom o) := by
  cases vt with
  | list => rw [if_neg (by simp)]; exact flat_read hf ho
  | numpy1d => rw [if_neg (by simp)]; exact flat_read hf ho
  | treedict => rw [if_pos (by simp)]; exact tree_read hf ho hu
  | numpy =>
    have h := numpy_read hf ho
    have h0 : 0 < (unobserved f.dom o).length := List.length_pos_iff.2 hu
    by_cases h1 : (unobserved f.dom o).length = 1
    · rw [if_neg (by simp [h1])]; exact h.1 (le_of_eq h1)
    · rw [if_pos (.inr ⟨rfl, h1⟩)]
      have h2 : 2 ≤ (unobserved f.dom o).length := by omega
      exact h.2 h2

/-- The completed observation is complete, so that the value is the one of the table. -/
theorem C71_completed [Nonempty S] {d : Dom V S} (hd : DomOk d) {o : Obs V S} (ho : ∀ p ∈ d, ∀ s, Dict.get? o p.1 = some s → s ∈ p.2) :
    FullObs d (completed d o) := by
  obtain ⟨a, a1, a2, _⟩ := exists_completed hd ho
  exact fullObs_of_covers a1 a2

end

/-- Values `1 … 4` over `X`, `Y`: reading with `X` only, and with nothing. -/
def readEx (vt : VType) (o : Obs Char Char) : Py (Fl ℚ) := do
  let f ← Factor.make (IQ vt) [('X', ['a', 'b']), ('Y', ['a', 'b'])] [q 1, q 2, q 3, q 4] none none
  f.getValue o

example : readEx .list [('X', 'b')] = .ok (q 3) ∧ readEx .numpy [('X', 'b')] = .ok (q 3) ∧ readEx .treedict [('X', 'b')] = .error .notScalar ∧
    readEx .numpy1d [] = .ok (q 1) ∧ readEx .numpy [] = .error .notScalar ∧
    completed [('X', ['a', 'b']), ('Y', ['a', 'b'])] [('X', 'b')] = [('X', 'b'), ('Y', 'a')] := by decide +kernel

end Verif.Props
