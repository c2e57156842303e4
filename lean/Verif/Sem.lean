import Verif.Spec.Sum

/-!
# Lemmas about assignments, domains and sums over states
-/

set_option linter.unusedSectionVars false
set_option linter.unusedSimpArgs false

namespace Verif

variable {V S : Type} [DecidableEq V] [DecidableEq S]

@[simp] theorem upd_same (a : V → S) (v : V) (s : S) : upd a v s v = s := by simp [upd]
theorem upd_ne (a : V → S) {v w : V} (s : S) (h : w ≠ v) : upd a v s w = a w := by simp [upd, h]

theorem upd_comm (a : V → S) {v w : V} (h : v ≠ w) (s t : S) :
    upd (upd a v s) w t = upd (upd a w t) v s := by
  funext x
  by_cases h1 : x = w
  · subst h1; simp [upd, Ne.symm h]
  · by_cases h2 : x = v
    · subst h2; simp [upd, h1]
    · simp [upd, h1, h2]

@[simp] theorem upd_upd (a : V → S) (v : V) (s t : S) : upd (upd a v s) v t = upd a v t := by
  funext x; by_cases h : x = v <;> simp [upd, h]

@[simp] theorem upd_self (a : V → S) (v : V) : upd a v (a v) = a := by
  funext x; by_cases h : x = v <;> simp [upd, h]

@[simp] theorem over_nil (a : V → S) : over [] a = a := rfl

theorem over_cons_of_not_mem {p : V × S} {o : Obs V S} (h : p.1 ∉ Dict.keys o) (a : V → S) :
    over (p :: o) a = over o (upd a p.1 p.2) := by
  funext w
  by_cases hw : p.1 = w
  · subst hw; simp [over, Dict.get?, Dict.get?_eq_none.2 h]
  · simp [over, Dict.get?, hw, upd_ne _ _ (Ne.symm hw)]

theorem over_of_not_mem {o : Obs V S} {a : V → S} {v : V} (h : v ∉ Dict.keys o) :
    over o a v = a v := by simp [over, Dict.get?_eq_none.2 h]

theorem over_of_get? {o : Obs V S} {a : V → S} {v : V} {s : S} (h : Dict.get? o v = some s) :
    over o a v = s := by simp [over, h]

theorem over_self_of_agree {o : Obs V S} {a : V → S}
    (h : ∀ v s, Dict.get? o v = some s → a v = s) : over o a = a := by
  funext v
  rcases hv : Dict.get? o v with _ | s
  · simp [over, hv]
  · simp [over, hv, h v s hv]

/-! ### Domains -/

theorem DomOk.nil : DomOk ([] : Dom V S) := ⟨by simp, by simp, by simp⟩

theorem DomOk.tail {p : V × List S} {d : Dom V S} (h : DomOk (p :: d)) : DomOk d :=
  ⟨(List.nodup_cons.1 (by simpa using h.keys)).2,
   fun q hq => h.states q (List.mem_cons_of_mem _ hq),
   fun q hq => h.nonempty q (List.mem_cons_of_mem _ hq)⟩

theorem DomOk.head {p : V × List S} {d : Dom V S} (h : DomOk (p :: d)) : p.1 ∉ Dict.keys d :=
  (List.nodup_cons.1 (by simpa using h.keys)).1

theorem DomOk.filter {d : Dom V S} (h : DomOk d) (q : V → Prop) [DecidablePred q] :
    DomOk (d.filter fun p => q p.1) := by
  refine ⟨?_, fun p hp => h.states p (List.mem_filter.1 hp).1,
    fun p hp => h.nonempty p (List.mem_filter.1 hp).1⟩
  rw [Dict.keys_filter_key]
  exact h.keys.filter _

theorem DomOk.domIn {d : Dom V S} (h : DomOk d) (vs : List V) : DomOk (domIn d vs) :=
  h.filter (fun v => v ∈ vs)
theorem DomOk.domOut {d : Dom V S} (h : DomOk d) (vs : List V) : DomOk (domOut d vs) :=
  h.filter (fun v => v ∉ vs)

theorem keys_domIn (d : Dom V S) (vs : List V) :
    Dict.keys (domIn d vs) = (Dict.keys d).filter (fun v => v ∈ vs) :=
  Dict.keys_filter_key d _
theorem keys_domOut (d : Dom V S) (vs : List V) :
    Dict.keys (domOut d vs) = (Dict.keys d).filter (fun v => v ∉ vs) :=
  Dict.keys_filter_key d (fun v => v ∉ vs)

theorem merge_eq_domUnion {d1 d2 : Dom V S} (h : Compat d1 d2) :
    Dict.merge d1 d2 = domUnion d1 d2 := by
  rw [Dict.merge, domUnion]
  congr 1
  conv_rhs => rw [← List.map_id d1]
  refine List.map_congr_left fun p hp => ?_
  rcases hg : Dict.get? d2 p.1 with _ | s
  · rfl
  · have := h p hp (p.1, s) (Dict.mem_of_get? hg) rfl
    have this : p.2 = s := this
    simp [← this]

theorem keys_domUnion (d1 d2 : Dom V S) :
    Dict.keys (domUnion d1 d2) = Dict.keys d1 ++ (Dict.keys d2).filter (fun k => k ∉ Dict.keys d1) := by
  rw [domUnion, Dict.keys_append, Dict.keys_filter_key d2 (fun k => k ∉ Dict.keys d1)]

theorem mem_keys_domUnion {d1 d2 : Dom V S} {v : V} :
    v ∈ Dict.keys (domUnion d1 d2) ↔ v ∈ Dict.keys d1 ∨ v ∈ Dict.keys d2 := by
  rw [keys_domUnion, List.mem_append, List.mem_filter]
  by_cases h : v ∈ Dict.keys d1 <;> simp [h]

theorem mem_domUnion {d1 d2 : Dom V S} {p : V × List S} :
    p ∈ domUnion d1 d2 ↔ p ∈ d1 ∨ (p ∈ d2 ∧ p.1 ∉ Dict.keys d1) := by
  simp [domUnion]

theorem DomOk.domUnion {d1 d2 : Dom V S} (h1 : DomOk d1) (h2 : DomOk d2) :
    DomOk (domUnion d1 d2) := by
  refine ⟨?_, ?_, ?_⟩
  · rw [keys_domUnion, List.nodup_append']
    refine ⟨h1.keys, h2.keys.filter _, ?_⟩
    intro x hx hy
    simp at hy; exact hy.2 hx
  · intro p hp
    rcases mem_domUnion.1 hp with h | h
    · exact h1.states p h
    · exact h2.states p h.1
  · intro p hp
    rcases mem_domUnion.1 hp with h | h
    · exact h1.nonempty p h
    · exact h2.nonempty p h.1

theorem InDom.sub {d d' : Dom V S} {a : V → S} (h : InDom d a) (hs : ∀ p ∈ d', p ∈ d) :
    InDom d' a := fun p hp => h p (hs p hp)

theorem InDom.left {d1 d2 : Dom V S} {a : V → S} (h : InDom (domUnion d1 d2) a) : InDom d1 a :=
  fun p hp => h p (mem_domUnion.2 (.inl hp))

theorem InDom.right {d1 d2 : Dom V S} {a : V → S} (hc : Compat d1 d2)
    (h : InDom (domUnion d1 d2) a) : InDom d2 a := by
  intro p hp
  by_cases hk : p.1 ∈ Dict.keys d1
  · obtain ⟨st, hst⟩ := Dict.mem_keys.1 hk
    have e : st = p.2 := hc _ hst p hp rfl
    have := h _ (mem_domUnion.2 (.inl hst))
    simpa [e] using this
  · exact h p (mem_domUnion.2 (.inr ⟨hp, hk⟩))

theorem inDom_upd {d : Dom V S} {a : V → S} {v : V} {s : S} (h : InDom d a)
    (hs : ∀ p ∈ d, p.1 = v → s ∈ p.2) : InDom d (upd a v s) := by
  intro p hp
  by_cases hv : p.1 = v
  · simpa [hv] using hs p hp hv
  · simpa [upd_ne _ _ hv] using h p hp

theorem coords_congr {d : Dom V S} {a b : V → S} (h : ∀ v ∈ Dict.keys d, a v = b v) :
    coords d a = coords d b :=
  List.map_congr_left fun p hp => by rw [h _ (Dict.mem_keys_of_mem hp)]

/-! ### Sums -/

theorem sumStates_congr {α : Type} [AddCommMonoid α] {f g : (V → S) → α} {d : Dom V S} {a : V → S}
    (h : ∀ b ∈ variants d a, f b = g b) : sumStates f d a = sumStates g d a := by
  induction d generalizing a with
  | nil => exact h a (by simp [variants])
  | cons p d ih =>
    rw [sumStates, sumStates]
    congr 1
    refine List.map_congr_left fun s hs => ih fun b hb => h b ?_
    rw [variants, List.mem_flatMap]; exact ⟨s, hs, hb⟩

theorem sumStates_eq_variants {α : Type} [AddCommMonoid α] (f : (V → S) → α) (d : Dom V S)
    (a : V → S) : sumStates f d a = ((variants d a).map f).sum := by
  induction d generalizing a with
  | nil => simp [sumStates, variants]
  | cons p d ih =>
    rw [sumStates, variants, List.map_flatMap, List.flatMap_def, List.sum_flatten, List.map_map]
    congr 1
    exact List.map_congr_left fun s _ => by simp [ih]

theorem variants_not_mem {d : Dom V S} {a b : V → S} (h : b ∈ variants d a) {v : V}
    (hv : v ∉ Dict.keys d) : b v = a v := by
  induction d generalizing a with
  | nil => simp [variants] at h; rw [h]
  | cons p d ih =>
    simp only [Dict.keys_cons, List.mem_cons, not_or] at hv
    rw [variants, List.mem_flatMap] at h
    obtain ⟨s, _, hb⟩ := h
    rw [ih hb hv.2, upd_ne _ _ hv.1]

theorem variants_inDom {d : Dom V S} (hk : (Dict.keys d).Nodup) {a b : V → S}
    (h : b ∈ variants d a) : InDom d b := by
  induction d generalizing a with
  | nil => intro p hp; simp at hp
  | cons p d ih =>
    rw [variants, List.mem_flatMap] at h
    obtain ⟨s, hs, hb⟩ := h
    simp only [Dict.keys_cons, List.nodup_cons] at hk
    intro q hq
    rcases List.mem_cons.1 hq with rfl | hq
    · rw [variants_not_mem hb hk.1]; simpa using hs
    · exact ih hk.2 hb q hq

/-- Membership in `variants`, for a domain with distinct variables. -/
theorem mem_variants {d : Dom V S} (hk : (Dict.keys d).Nodup) {a b : V → S} :
    b ∈ variants d a ↔ InDom d b ∧ ∀ v, v ∉ Dict.keys d → b v = a v := by
  refine ⟨fun h => ⟨variants_inDom hk h, fun v hv => variants_not_mem h hv⟩, ?_⟩
  rintro ⟨h1, h2⟩
  induction d generalizing a with
  | nil =>
    have : b = a := funext fun v => h2 v (by simp)
    simp [variants, this]
  | cons p d ih =>
    simp only [Dict.keys_cons, List.nodup_cons] at hk
    rw [variants, List.mem_flatMap]
    refine ⟨b p.1, h1 p List.mem_cons_self, ih hk.2 (fun q hq => h1 q (List.mem_cons_of_mem _ hq)) ?_⟩
    intro v hv
    by_cases h : v = p.1
    · subst h; simp
    · rw [upd_ne _ _ h]; exact h2 v (by simp [h, hv])

/-- `variants` follows the order of `assignmentSpace`. -/
theorem variants_eq_assignmentSpace {d : Dom V S} (hk : (Dict.keys d).Nodup) (a : V → S) :
    variants d a = (assignmentSpace d).map fun o => over o a := by
  induction d generalizing a with
  | nil => rfl
  | cons p d ih =>
    simp only [Dict.keys_cons, List.nodup_cons] at hk
    simp only [variants, assignmentSpace, stateSpace, List.map_cons, product, List.map_flatMap,
      List.map_map, Dict.keys_cons, Function.comp_def]
    congr 1; funext s
    rw [ih hk.2]
    simp only [assignmentSpace, stateSpace, List.map_map, Function.comp_def]
    refine List.map_congr_left fun xs hxs => ?_
    rw [List.zip_cons_cons, over_cons_of_not_mem]
    intro hmem
    have : p.1 ∈ Dict.keys d := by
      obtain ⟨x, hx⟩ := Dict.mem_keys.1 hmem
      exact (List.of_mem_zip hx).1
    exact hk.1 this

/-- Enumerating coordinates is enumerating joint states. -/
theorem map_idxSpace_cards {γ : Type} {d : Dom V S} (hd : DomOk d) (a : V → S)
    (f : List Nat → γ) :
    (idxSpace (cards d)).map f = (variants d a).map fun b => f (coords d b) := by
  induction d generalizing a f with
  | nil => simp [idxSpace, cards, product, variants, coords]
  | cons p d ih =>
    have h1 : p.1 ∉ Dict.keys d := hd.head
    have hr : List.range p.2.length = p.2.map (fun s => p.2.idxOf s) := by
      refine List.ext_getElem (by simp) ?_
      intro i hi hi'
      simp only [List.getElem_range, List.getElem_map]
      exact (hd.states p List.mem_cons_self).idxOf_getElem i (by simpa using hi) |>.symm
    simp only [idxSpace, cards, List.map_cons, product, hr, List.flatMap_map, List.map_flatMap,
      variants, List.map_map]
    refine List.flatMap_congr fun s hs => ?_
    have := ih hd.tail (upd a p.1 s) (fun idx => f (p.2.idxOf s :: idx))
    simp only [idxSpace, cards, List.map_map] at this
    simp only [Function.comp_def] at this ⊢
    rw [this]
    refine List.map_congr_left fun b hb => ?_
    have : b p.1 = s := by rw [variants_not_mem hb h1]; simp
    simp [coords, this]

end Verif
