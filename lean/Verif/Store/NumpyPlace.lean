import Verif.Store.NumpyLemmas

/-!
# The numpy store does not look at the labels of the states
-/

set_option linter.unusedSectionVars false
set_option linter.unusedSimpArgs false

namespace Verif.NumpyStore

variable {V S α : Type} [DecidableEq V] [DecidableEq S] [Inhabited α]

/-- The same variables with as many states -/
def Like (d e : Dom V S) : Prop := List.Forall₂ (fun p q : V × List S => p.1 = q.1 ∧ p.2.length = q.2.length) d e

theorem Like.refl (d : Dom V S) : Like d d := List.forall₂_same.2 fun _ _ => ⟨rfl, rfl⟩

theorem Like.keys {d e : Dom V S} (h : Like d e) : Dict.keys d = Dict.keys e := by
  induction h with
  | nil => rfl
  | cons h _ ih => rw [Dict.keys_cons, Dict.keys_cons, h.1, ih]

theorem Like.cards {d e : Dom V S} (h : Like d e) : cards d = cards e := by
  induction h with
  | nil => rfl
  | cons h _ ih =>
    simp only [Verif.cards, List.map_cons] at ih ⊢
    rw [h.2, ih]

theorem Like.append {d e d' e' : Dom V S} (h : Like d e) (h' : Like d' e') : Like (d ++ d') (e ++ e') := List.rel_append h h'

theorem Like.map {d : Dom V S} {g : V × List S → List S} (h : ∀ p ∈ d, p.2.length = (g p).length) : Like d (d.map fun p => (p.1, g p)) := by
  induction d with
  | nil => exact .nil
  | cons p d ih => exact .cons ⟨rfl, h p List.mem_cons_self⟩ (ih fun q hq => h q (List.mem_cons_of_mem _ hq))

theorem Like.symm {d e : Dom V S} (h : Like d e) : Like e d := by
  induction h with
  | nil => exact .nil
  | cons h _ ih => exact .cons ⟨h.1.symm, h.2.symm⟩ ih

theorem Like.trans {d e f : Dom V S} (h : Like d e) (h' : Like e f) : Like d f := by
  induction h generalizing f with
  | nil => exact h'
  | cons h _ ih =>
    cases h' with
    | cons h1 h2 => exact .cons ⟨h.1.trans h1.1, h.2.trans h1.2⟩ (ih h2)

theorem Like.get? {d e : Dom V S} (h : Like d e) (v : V) :
    (Dict.get? d v = none ∧ Dict.get? e v = none) ∨ ∃ x y, Dict.get? d v = some x ∧ Dict.get? e v = some y ∧ x.length = y.length := by
  induction h with
  | nil => exact .inl ⟨rfl, rfl⟩
  | @cons p q d e h _ ih =>
    rw [Dict.get?, Dict.get?, ← h.1]
    by_cases hp : p.1 = v
    · rw [if_pos hp, if_pos hp]; exact .inr ⟨_, _, rfl, rfl, h.2⟩
    · rw [if_neg hp, if_neg hp]; exact ih

/-- The same outcome up to the labels of the states -/
def Same (x y : Py (NumpyStore V S α)) : Prop :=
  (∃ s t, x = .ok s ∧ y = .ok t ∧ s.data = t.data ∧ Like s.dom t.dom) ∨ ∃ e, x = .error e ∧ y = .error e

theorem same_mk? {d e : Dom V S} (h : Like d e) (a : NdArray α) : Same (mk? d a) (mk? e a) := by
  rw [mk?, mk?, ← h.cards]
  split
  · exact .inl ⟨_, _, rfl, rfl, rfl, h⟩
  · exact .inr ⟨_, rfl, rfl⟩

theorem same_extend {s t : NumpyStore V S α} (hd : s.data = t.data) (h : Like s.dom t.dom) (e : Dom V S) : Same (s.extendIf e) (t.extendIf e) := by
  rw [extendIf, extendIf, ← h.keys]
  split
  · rw [extendDomain, extendDomain, ← h.keys, ← hd]
    refine same_mk? ?_ _
    set e' := e.filter fun p => p.1 ∉ Dict.keys s.dom with he
    have hn : ∀ d : Dom V S, Dict.keys d = Dict.keys s.dom → (d.map fun p => (p.1, (Dict.get? e' p.1).getD p.2)) = d := by
      intro d hd
      conv_rhs => rw [← List.map_id d]
      refine List.map_congr_left fun p hp => ?_
      have : Dict.get? e' p.1 = none := by
        rw [Dict.get?_eq_none]
        intro h
        obtain ⟨q, hq, e⟩ := List.mem_map.1 h
        have := (List.mem_filter.1 hq).2
        simp only [decide_eq_true_eq] at this
        refine this ?_
        rw [e, ← hd]
        exact Dict.mem_keys_of_mem hp
      rw [this]; rfl
    rw [Dict.merge, Dict.merge, hn _ rfl, hn _ h.keys.symm, ← h.keys]
    exact h.append (Like.refl _)
  · exact .inl ⟨_, _, rfl, rfl, hd, h⟩

theorem same_reorder {s t : NumpyStore V S α} (hd : s.data = t.data) (h : Like s.dom t.dom) (vs : List V) : Same (s.reorderIf vs) (t.reorderIf vs) := by
  rw [reorderIf, reorderIf, ← h.keys]
  split
  · rw [reorder, reorder, ← h.keys]
    split
    · exact .inl ⟨_, _, rfl, rfl, hd, h⟩
    · simp only
      rw [← hd]
      have hm : ∀ ws : List V, (∃ d e : Dom V S, (ws.mapM fun v => do let d ← Dict.get s.dom v; return (v, d)) = (.ok d : Py (Dom V S)) ∧
          (ws.mapM fun v => do let d ← Dict.get t.dom v; return (v, d)) = (.ok e : Py (Dom V S)) ∧ Like d e) ∨
          ∃ x, (ws.mapM fun v => do let d ← Dict.get s.dom v; return (v, d)) = (.error x : Py (Dom V S)) ∧
            (ws.mapM fun v => do let d ← Dict.get t.dom v; return (v, d)) = (.error x : Py (Dom V S)) := by
        intro ws
        induction ws with
        | nil => exact .inl ⟨[], [], rfl, rfl, .nil⟩
        | cons w ws ih =>
          rw [List.mapM_cons, List.mapM_cons]
          rcases h.get? w with ⟨h1, h2⟩ | ⟨x, y, h1, h2, h3⟩
          · refine .inr ⟨.keyError, ?_, ?_⟩
            · rw [Dict.get, h1]; rfl
            · rw [Dict.get, h2]; rfl
          · have e1 : Dict.get s.dom w = .ok x := by rw [Dict.get, h1]
            have e2 : Dict.get t.dom w = .ok y := by rw [Dict.get, h2]
            rw [e1, e2]
            rcases ih with ⟨d, e, i1, i2, i3⟩ | ⟨x', i1, i2⟩
            · refine .inl ⟨(w, x) :: d, (w, y) :: e, ?_, ?_, .cons ⟨rfl, h3⟩ i3⟩
              · simp only [py_ok_bind, i1, pure_bind]; rfl
              · simp only [py_ok_bind, i2, pure_bind]; rfl
            · refine .inr ⟨x', ?_, ?_⟩
              · simp only [py_ok_bind, i1, pure_bind]; rfl
              · simp only [py_ok_bind, i2, pure_bind]; rfl
      rcases hm _ with ⟨d, e, i1, i2, i3⟩ | ⟨x, i1, i2⟩
      · rw [i1, i2, py_ok_bind, py_ok_bind]
        exact same_mk? i3 _
      · rw [i1, i2]
        exact .inr ⟨x, rfl, rfl⟩
  · exact .inl ⟨_, _, rfl, rfl, hd, h⟩

theorem same_align {s t : NumpyStore V S α} (hd : s.data = t.data) (h : Like s.dom t.dom) (e : Dom V S) : Same (s.align e) (t.align e) := by
  rw [align, align]
  rcases same_extend hd h e with ⟨s', t', h1, h2, h3, h4⟩ | ⟨x, h1, h2⟩
  · rw [h1, h2, py_ok_bind, py_ok_bind]
    exact same_reorder h3 h4 _
  · rw [h1, h2]
    exact .inr ⟨x, rfl, rfl⟩

/-- The first operand with the labels of the second one -/
def relabel (s t : NumpyStore V S α) : NumpyStore V S α := ⟨s.dom.map fun p => (p.1, (Dict.get? t.dom p.1).getD p.2), s.data⟩

/-- Shared variables have as many states. -/
def AsMany (d e : Dom V S) : Prop := ∀ p ∈ d, ∀ q ∈ e, p.1 = q.1 → p.2.length = q.2.length

theorem relabel_like {s t : NumpyStore V S α} (h : AsMany s.dom t.dom) : Like s.dom (s.relabel t).dom := by
  refine Like.map fun p hp => ?_
  cases hg : Dict.get? t.dom p.1 with
  | none => rfl
  | some l => exact h p hp _ (Dict.mem_of_get? hg) rfl

theorem combine_relabel (op : α → α → α) {s t : NumpyStore V S α} (h : AsMany s.dom t.dom) : s.combine op t = (s.relabel t).combine op t := by
  have hl := relabel_like h
  have hm : Dict.merge (s.relabel t).dom t.dom = Dict.merge s.dom t.dom := by
    rw [Dict.merge, Dict.merge, ← hl.keys]
    congr 1
    rw [relabel, List.map_map]
    refine List.map_congr_left fun p _ => ?_
    simp only [Function.comp_apply]
    cases Dict.get? t.dom p.1 <;> rfl
  rw [combine, combine, hm]
  rcases same_align (s := s) (t := s.relabel t) rfl hl (Dict.merge s.dom t.dom) with ⟨s', t', h1, h2, h3, h4⟩ | ⟨x, h1, h2⟩
  · rw [h1, h2, py_ok_bind, py_ok_bind, h3]
  · rw [h1, h2]

theorem relabel_wf {s t : NumpyStore V S α} (hs : s.WF) (ht : t.WF) (h : AsMany s.dom t.dom) : (s.relabel t).WF := by
  have hl := relabel_like h
  refine ⟨⟨?_, ?_, ?_⟩, hs.data, ?_⟩
  · rw [← hl.keys]; exact hs.dom.keys
  · intro p hp
    obtain ⟨q, hq, rfl⟩ := List.mem_map.1 hp
    simp only
    cases hg : Dict.get? t.dom q.1 with
    | none => exact hs.dom.states q hq
    | some l => exact ht.dom.states _ (Dict.mem_of_get? hg)
  · intro p hp
    obtain ⟨q, hq, rfl⟩ := List.mem_map.1 hp
    simp only
    cases hg : Dict.get? t.dom q.1 with
    | none => exact hs.dom.nonempty q hq
    | some l => exact ht.dom.nonempty _ (Dict.mem_of_get? hg)
  · exact hs.shape.trans hl.cards

/-- The values of the first operand are taken by place of the states. -/
theorem combine_place (op : α → α → α) {s t : NumpyStore V S α} (hs : s.WF) (ht : t.WF) (h : AsMany s.dom t.dom) :
    ∃ r, s.combine op t = .ok r ∧ r.WF ∧ r.dom = Dict.merge s.dom t.dom ∧
      ∀ a b, InDom r.dom a → (∀ p ∈ s.dom, p.2.idxOf (b p.1) = ((Dict.get? t.dom p.1).getD p.2).idxOf (a p.1)) → r.sem a = op (s.sem b) (t.sem a) := by
  have hl := relabel_like h
  have hc : Compat (s.relabel t).dom t.dom := by
    intro p hp q hq e
    obtain ⟨p', hp', rfl⟩ := List.mem_map.1 hp
    have : Dict.get? t.dom p'.1 = some q.2 := by
      rw [show p'.1 = q.1 from e]; exact Dict.get?_of_mem ht.dom.keys hq
    simp only [this, Option.getD_some]
  obtain ⟨r, r1, r2, r3, r4⟩ := combine_ok op (relabel_wf hs ht h) ht hc
  refine ⟨r, (combine_relabel op h).trans r1, r2, ?_, fun a b ha hab => ?_⟩
  · rw [r3, domUnion, ← hl.keys, Dict.merge]; rfl
  · rw [r4 a ha]
    congr 1
    show s.data.get _ = s.data.get _
    congr 1
    rw [coords, coords, relabel, List.map_map]
    refine List.map_congr_left fun p hp => ?_
    simp only [Function.comp_apply]
    exact (hab p hp).symm

end Verif.NumpyStore
