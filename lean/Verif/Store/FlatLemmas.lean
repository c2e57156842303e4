import Verif.Store.Flat
import Verif.Sem

/-!
# Laws of the list and numpy1d stores
-/

set_option linter.unusedSectionVars false
set_option linter.unusedSimpArgs false

namespace Verif

variable {V S α : Type} [DecidableEq V] [DecidableEq S] [Inhabited α]

/-! ### Positions selected by an observation -/

theorem length_selRange_filter (d : Dom V S) (o : Obs V S) :
    ((d.map (selRange o)).map List.length).prod
      = (cards (d.filter fun p => p.1 ∉ Dict.keys o)).prod := by
  induction d with
  | nil => rfl
  | cons p d ih =>
    rcases h : Dict.get? o p.1 with _ | s
    · have : p.1 ∉ Dict.keys o := Dict.get?_eq_none.1 h
      simp [List.filter_cons, this, cards, selRange, h] at ih ⊢
      exact Or.inl ih
    · have : p.1 ∈ Dict.keys o := Dict.get?_isSome.1 (by simp [h])
      simp [List.filter_cons, this, cards, selRange, h] at ih ⊢
      exact ih

theorem selRange_getElem? {d : Dom V S} {o : Obs V S} {a : V → S}
    (ha : InDom (d.filter fun p => p.1 ∉ Dict.keys o) a) :
    (product (d.map (selRange o)))[ravel (cards (d.filter fun p => p.1 ∉ Dict.keys o))
        (coords (d.filter fun p => p.1 ∉ Dict.keys o) a)]?
      = some (coords d (over o a)) := by
  have hm : List.Forall₂ (fun x l => x ∈ l) (coords d (over o a)) (d.map (selRange o)) := by
    rw [coords, List.forall₂_map_left_iff, List.forall₂_map_right_iff, List.forall₂_same]
    intro p hp
    rcases h : Dict.get? o p.1 with _ | s
    · have hk : p.1 ∉ Dict.keys o := Dict.get?_eq_none.1 h
      have := ha p (by simp [List.mem_filter, hp, hk])
      simp [selRange, h, over, List.idxOf_lt_length_iff, this]
    · simp [selRange, h, over]
  have := product_getElem? hm
  rw [← this]
  congr 1
  clear this hm
  induction d with
  | nil => rfl
  | cons p d ih =>
    rcases h : Dict.get? o p.1 with _ | s
    · have hk : p.1 ∉ Dict.keys o := Dict.get?_eq_none.1 h
      have hf : ((p :: d).filter fun p => p.1 ∉ Dict.keys o)
          = p :: d.filter fun p => p.1 ∉ Dict.keys o := by simp [hk]
      rw [hf] at ha ⊢
      have hp := ha p List.mem_cons_self
      have ih := ih (fun q hq => ha q (List.mem_cons_of_mem _ hq))
      simp only [cards, coords, List.map_cons, List.zipWith_cons_cons, ravel_cons] at ih ⊢
      rw [ih]
      have hl : ((d.map (selRange o)).map List.length).prod
        = ((d.filter fun p => p.1 ∉ Dict.keys o).map fun p => p.2.length).prod :=
        length_selRange_filter d o
      rw [hl]
      congr 2
      simp only [selRange, h, over, Option.getD_none]
      exact (idxOf_range (List.idxOf_lt_length_of_mem hp)).symm
    · have hk : p.1 ∈ Dict.keys o := Dict.get?_isSome.1 (by simp [h])
      have hf : ((p :: d).filter fun p => p.1 ∉ Dict.keys o)
          = d.filter fun p => p.1 ∉ Dict.keys o := by simp [hk]
      rw [hf] at ha ⊢
      have ih := ih ha
      simp only [cards, coords, List.map_cons, List.zipWith_cons_cons, ravel_cons] at ih ⊢
      rw [ih]
      simp [selRange, h, over]

theorem obsOk_of_covers {d : Dom V S} {o : Obs V S} {a : V → S} (ha : InDom d a)
    (hc : Covers d o a) : ObsOk d o := by
  intro p hp x hx
  have := hc p.1 (Dict.mem_keys_of_mem hp)
  rw [this] at hx; cases hx; exact ha p hp

theorem filter_covers {d : Dom V S} {o : Obs V S} {a : V → S} (hc : Covers d o a) :
    d.filter (fun p => p.1 ∉ Dict.keys o) = [] := by
  rw [List.filter_eq_nil_iff]
  intro p hp
  have := hc p.1 (Dict.mem_keys_of_mem hp)
  simpa using Dict.get?_isSome.1 (by rw [this]; rfl)

/-- A full observation selects exactly its own flat position. -/
theorem indexList_full {d : Dom V S} (hd : DomOk d) {o : Obs V S} {a : V → S} (ha : InDom d a)
    (hc : Covers d o a) : indexList d o = .ok [ravel (cards d) (coords d a)] := by
  rw [indexList_eq hd.keys (obsOk_of_covers ha hc)]
  congr 1
  have hl := length_product (d.map (selRange o))
  rw [length_selRange_filter, filter_covers hc] at hl
  obtain ⟨x, hx⟩ := List.length_eq_one_iff.1 (by simpa [cards] using hl)
  have h1 := selRange_getElem? (d := d) (o := o) (a := a) (by
    rw [filter_covers hc]; intro p hp; simp at hp)
  rw [filter_covers hc, hx] at h1
  simp [cards, coords] at h1
  have h2 : coords d (over o a) = coords d a := coords_congr fun v hv => by
    rw [over_of_get? (hc v hv)]
  rw [hx, List.map_singleton, h1, ← h2]; rfl

/-! ### Enumerated observations -/

theorem assignmentSpace_getElem? {d : Dom V S} {a : V → S} (ha : InDom d a) :
    (assignmentSpace d)[ravel (cards d) (coords d a)]?
      = some (d.map fun p => (p.1, a p.1)) := by
  have hm : List.Forall₂ (fun x l => x ∈ l) (d.map fun p => a p.1) (d.map Prod.snd) := by
    rw [List.forall₂_map_left_iff, List.forall₂_map_right_iff, List.forall₂_same]
    exact ha
  have := product_getElem? hm
  rw [assignmentSpace, List.getElem?_map, stateSpace]
  have e1 : ravel (cards d) (coords d a) = ravel ((d.map Prod.snd).map List.length)
      (List.zipWith (fun x (l : List S) => l.idxOf x) (d.map fun p => a p.1) (d.map Prod.snd)) := by
    congr 1
    · simp [cards]
    · rw [List.zipWith_map, coords, List.zipWith_self]
  rw [e1, this]
  simp only [Option.map_some, Option.some.injEq, Dict.keys]
  rw [List.zip_map', ]

theorem covers_map (d : Dom V S) (a : V → S) {e : Dom V S}
    (h : ∀ v ∈ Dict.keys e, v ∈ Dict.keys d) : Covers e (d.map fun p => (p.1, a p.1)) a := by
  intro v hv
  have := h v hv
  have e1 : Dict.get? (d.map fun p => (p.1, a p.1)) v = (Dict.get? d v).map fun _ => a v :=
    Dict.get?_map_snd d (fun v _ => a v) v
  rw [e1]
  rcases hg : Dict.get? d v with _ | x
  · exact absurd this (Dict.get?_eq_none.1 hg)
  · rfl

/-- Every enumerated observation comes from an assignment within the domain. -/
theorem mem_assignmentSpace {d : Dom V S} (hk : (Dict.keys d).Nodup) {o : Obs V S}
    (ho : o ∈ assignmentSpace d) (a0 : V → S) :
    InDom d (over o a0) ∧ o = d.map (fun p => (p.1, over o a0 p.1)) := by
  have hv : over o a0 ∈ variants d a0 := by
    rw [variants_eq_assignmentSpace hk]; exact List.mem_map_of_mem ho
  refine ⟨variants_inDom hk hv, ?_⟩
  simp only [assignmentSpace, List.mem_map] at ho
  obtain ⟨xs, hxs, rfl⟩ := ho
  have hl : xs.length = d.length := by
    have := (mem_product.1 hxs).length_eq; simpa using this
  have hkn : ∀ (d : Dom V S) (xs : List S), xs.length = d.length → Dict.keys ((Dict.keys d).zip xs) = Dict.keys d := by
    intro d
    induction d with
    | nil => intro xs _; simp [Dict.keys]
    | cons p d ih =>
      intro xs h
      cases xs with
      | nil => simp at h
      | cons x xs => simp [ih xs (by simpa using h)]
  have hnd : (Dict.keys ((Dict.keys d).zip xs)).Nodup := by rw [hkn d xs hl]; exact hk
  refine List.ext_getElem (by simp [Dict.keys, hl]) ?_
  intro i h1 h2
  have hmem := List.getElem_mem h1
  have hi : i < d.length := by simpa using h2
  have e1 : ((Dict.keys d).zip xs)[i].1 = d[i].1 := by simp [Dict.keys]
  have := Dict.get?_of_mem hnd (k := ((Dict.keys d).zip xs)[i].1)
    (v := ((Dict.keys d).zip xs)[i].2) hmem
  rw [List.getElem_map]
  rw [e1] at this
  refine Prod.ext e1 ?_
  simp only
  rw [over_of_get? this]

theorem mem_assignmentSpace' {d : Dom V S} (hk : (Dict.keys d).Nodup) {o : Obs V S}
    (ho : o ∈ assignmentSpace d) :
    Dict.keys o = Dict.keys d ∧ ObsOk d o := by
  simp only [assignmentSpace, List.mem_map] at ho
  obtain ⟨xs, hxs, rfl⟩ := ho
  rw [stateSpace, mem_product] at hxs
  induction d generalizing xs with
  | nil => exact ⟨by simp [Dict.keys], by intro p hp; simp at hp⟩
  | cons p d ih =>
    cases xs with
    | nil => cases hxs
    | cons x xs =>
      rw [List.map_cons, List.forall₂_cons] at hxs
      rw [Dict.keys_cons, List.nodup_cons] at hk
      obtain ⟨h1, h2⟩ := ih hk.2 xs hxs.2
      refine ⟨by simp [h1], ?_⟩
      intro q hq y hy
      rw [Dict.keys_cons, List.zip_cons_cons, Dict.get?] at hy
      rcases List.mem_cons.1 hq with rfl | hq
      · simp at hy; rw [← hy]; exact hxs.1
      · have hne : p.1 ≠ q.1 := by
          intro e; exact hk.1 (by rw [e]; exact Dict.mem_keys_of_mem hq)
        simp [hne] at hy
        exact h2 q hq y hy

/-- Observations enumerated for some variables, as observations on a larger domain. -/
theorem domOut_eq_filter_of_space {d : Dom V S} {vars : List V} {o : Obs V S}
    (ho : Dict.keys o = Dict.keys (domIn d vars)) :
    (d.filter fun p => p.1 ∉ Dict.keys o) = domOut d vars := by
  unfold domOut
  refine List.filter_congr fun p hp => ?_
  rw [ho, keys_domIn]
  have := Dict.mem_keys_of_mem hp
  simp [this]

theorem space_domIn_ok {d : Dom V S} (hd : DomOk d) {vars : List V} {o : Obs V S}
    (ho : o ∈ assignmentSpace (domIn d vars)) :
    ObsOk d o ∧ (d.filter fun p => p.1 ∉ Dict.keys o) = domOut d vars := by
  obtain ⟨h1, h2⟩ := mem_assignmentSpace' (hd.domIn vars).keys ho
  refine ⟨?_, domOut_eq_filter_of_space h1⟩
  intro p hp x hx
  have hk : p.1 ∈ Dict.keys (domIn d vars) := by
    rw [← h1]; exact Dict.get?_isSome.1 (by simp [hx])
  obtain ⟨st, hst⟩ := Dict.mem_keys.1 hk
  have m1 := (List.mem_filter.1 hst).1
  have e1 : Dict.get? d p.1 = some st := Dict.get?_of_mem hd.keys m1
  have e2 : Dict.get? d p.1 = some p.2 := Dict.get?_of_mem hd.keys hp
  rw [e2] at e1; cases e1
  exact h2 _ hst x hx

theorem exists_assignment_of_space [Nonempty S] {d : Dom V S} (hk : (Dict.keys d).Nodup)
    {o : Obs V S} (ho : o ∈ assignmentSpace d) : ∃ a : V → S, InDom d a ∧ Covers d o a := by
  obtain ⟨h1, h2⟩ := mem_assignmentSpace hk ho (fun _ => Classical.arbitrary S)
  refine ⟨_, h1, ?_⟩
  have := covers_map d (over o fun _ => Classical.arbitrary S) (e := d) (fun v hv => hv)
  rw [← h2] at this
  exact this

theorem space_eq_of_covers {d : Dom V S} (hk : (Dict.keys d).Nodup) {o : Obs V S}
    (ho : o ∈ assignmentSpace d) {a : V → S} (hc : Covers d o a) :
    o = d.map fun p => (p.1, a p.1) := by
  obtain ⟨_, h2⟩ := mem_assignmentSpace hk ho a
  rw [h2]
  refine List.map_congr_left fun p hp => ?_
  have := hc p.1 (Dict.mem_keys_of_mem hp)
  rw [over_of_get? this]

theorem nodup_assignmentSpace {d : Dom V S} (hd : DomOk d) : (assignmentSpace d).Nodup := by
  have hp : (product (d.map Prod.snd)).Nodup := nodup_product (by
    simp only [List.mem_map]; rintro l ⟨p, hp, rfl⟩; exact hd.states p hp)
  refine List.Nodup.map_on ?_ hp
  intro xs hxs ys hys h
  have l1 := (mem_product.1 hxs).length_eq
  have l2 := (mem_product.1 hys).length_eq
  have := congrArg (List.map Prod.snd) h
  rwa [List.map_snd_zip (by simp [Dict.keys] at l1 ⊢; omega),
    List.map_snd_zip (by simp [Dict.keys] at l2 ⊢; omega)] at this

namespace FlatStore

/-- Well-formed flat store. -/
structure WF (s : FlatStore V S α) : Prop where
  dom : DomOk s.dom
  len : s.data.length = (cards s.dom).prod

/-- Value at a total assignment. -/
def sem (s : FlatStore V S α) (a : V → S) : α :=
  s.data.getD (ravel (cards s.dom) (coords s.dom a)) default

theorem sem_congr {s : FlatStore V S α} {a b : V → S} (h : ∀ v ∈ Dict.keys s.dom, a v = b v) :
    s.sem a = s.sem b := by rw [sem, sem, coords_congr h]

theorem restrict_ok {s : FlatStore V S α} (hs : s.WF) {obs : Obs V S} (ho : ObsOk s.dom obs) :
    ∃ r, s.restrict obs = .ok r ∧ r.WF ∧ r.dom = s.dom.filter (fun p => p.1 ∉ Dict.keys obs) ∧
      ∀ a, InDom r.dom a → r.sem a = s.sem (over obs a) := by
  have hl : (((product (s.dom.map (selRange obs))).map (ravel (cards s.dom))).map
      fun i => s.data.getD i default).length
      = (cards (s.dom.filter fun p => p.1 ∉ Dict.keys obs)).prod := by
    simp only [List.length_map, length_product]
    exact length_selRange_filter s.dom obs
  refine ⟨⟨_, _⟩, ?_, ⟨hs.dom.filter (fun v => v ∉ Dict.keys obs), hl⟩, rfl, ?_⟩
  · simp only [restrict, indexList_eq hs.dom.keys ho, py_ok_bind, mk?]
    rw [if_pos hl]
  · intro a ha
    have := selRange_getElem? (o := obs) ha
    rw [sem, sem]
    simp only [List.getD_eq_getElem?_getD, List.getElem?_map, this, Option.map_some,
      Option.getD_some]

theorem getValue_ok {s : FlatStore V S α} (hs : s.WF) {obs : Obs V S} {a : V → S}
    (ha : InDom s.dom a) (hc : Covers s.dom obs a) : s.getValue obs = .ok (s.sem a) := by
  obtain ⟨r, h1, h2, h3, h4⟩ := restrict_ok hs (obsOk_of_covers ha hc)
  rw [filter_covers hc] at h3
  have hl := h2.len
  rw [h3] at hl
  obtain ⟨x, hx⟩ := List.length_eq_one_iff.1 (by simpa [cards] using hl)
  have h5 := h4 a (by rw [h3]; intro p hp; simp at hp)
  have hov : s.sem (over obs a) = s.sem a := sem_congr fun v hv => by
    rw [over_of_get? (hc v hv)]
  rw [hov] at h5
  rw [getValue, h1]
  simp only [py_ok_bind, hx]
  rw [← h5]
  simp [sem, hx, h3, cards]

theorem firstIndex_full {d : Dom V S} (hd : DomOk d) {o : Obs V S} {a : V → S} (ha : InDom d a)
    (hc : Covers d o a) : firstIndex d o = .ok (ravel (cards d) (coords d a)) := by
  rw [firstIndex, indexList_full hd ha hc]; rfl

theorem setValue_ok {s : FlatStore V S α} (hs : s.WF) {obs : Obs V S} {a : V → S} (x : α)
    (ha : InDom s.dom a) (hc : Covers s.dom obs a) :
    s.setValue x obs = .ok ⟨s.dom, s.data.set (ravel (cards s.dom) (coords s.dom a)) x⟩ := by
  rw [setValue, firstIndex_full hs.dom ha hc]; rfl

end FlatStore

/-- The states of shared variables agree as sets. -/
theorem inDom_of_merge_left {d1 d2 : Dom V S} (h1 : (Dict.keys d1).Nodup)
    (hc : SetCompat d1 d2) {a : V → S}
    (ha : InDom (Dict.merge d1 d2) a) : InDom d1 a := by
  intro p hp
  have := ha (p.1, (Dict.get? d2 p.1).getD p.2) (by
    rw [Dict.merge]; exact List.mem_append_left _ (List.mem_map_of_mem hp))
  rcases hg : Dict.get? d2 p.1 with _ | st
  · simpa [hg] using this
  · have hperm := hc p hp (p.1, st) (Dict.mem_of_get? hg) rfl
    simp [hg] at this
    exact hperm.mem_iff.2 this

theorem inDom_of_merge_right {d1 d2 : Dom V S} (h2 : (Dict.keys d2).Nodup) {a : V → S}
    (ha : InDom (Dict.merge d1 d2) a) : InDom d2 a := by
  intro p hp
  by_cases hk : p.1 ∈ Dict.keys d1
  · obtain ⟨st, hst⟩ := Dict.mem_keys.1 hk
    have hg : Dict.get? d2 p.1 = some p.2 := Dict.get?_of_mem h2 hp
    have := ha (p.1, (Dict.get? d2 p.1).getD st) (by
      rw [Dict.merge]; exact List.mem_append_left _ (List.mem_map_of_mem (f := fun p => (p.1, (Dict.get? d2 p.1).getD p.2)) hst))
    simpa [hg] using this
  · exact ha p (by
      rw [Dict.merge]; exact List.mem_append_right _ (by simp [hp, hk]))

theorem keys_sub_merge_left (d1 d2 : Dom V S) : ∀ v ∈ Dict.keys d1, v ∈ Dict.keys (Dict.merge d1 d2) := by
  intro v hv; rw [Dict.keys_merge]; exact List.mem_append_left _ hv

theorem keys_sub_merge_right (d1 d2 : Dom V S) : ∀ v ∈ Dict.keys d2, v ∈ Dict.keys (Dict.merge d1 d2) := by
  intro v hv
  rw [Dict.keys_merge, List.mem_append, List.mem_filter]
  by_cases h : v ∈ Dict.keys d1 <;> simp [h, hv]

theorem DomOk.merge {d1 d2 : Dom V S} (h1 : DomOk d1) (h2 : DomOk d2) :
    DomOk (Dict.merge d1 d2) := by
  refine ⟨Dict.nodup_keys_merge h1.keys h2.keys, ?_, ?_⟩ <;>
  · intro p hp
    rw [Dict.merge, List.mem_append, List.mem_map] at hp
    rcases hp with ⟨q, hq, rfl⟩ | hp
    · rcases hg : Dict.get? d2 q.1 with _ | st
      · first | exact h1.states q hq | exact h1.nonempty q hq
      · have := Dict.mem_of_get? hg
        first | exact h2.states _ this | exact h2.nonempty _ this
    · have := (List.mem_filter.1 hp).1
      first | exact h2.states _ this | exact h2.nonempty _ this

namespace ListStore
open FlatStore

theorem reduceVars_ok {s : FlatStore V S α} (hs : s.WF) (f : List α → α) (vars : List V) :
    ∃ r, reduceVars f s vars = .ok r ∧ r.WF ∧ r.dom = domOut s.dom vars ∧
      ∀ a, InDom r.dom a → r.sem a = f ((variants (domIn s.dom vars) a).map s.sem) := by
  have hdi := hs.dom.domIn vars
  have key : ∀ o ∈ assignmentSpace (domIn s.dom vars),
      ObsOk s.dom o ∧ (s.dom.filter fun p => p.1 ∉ Dict.keys o) = domOut s.dom vars :=
    fun o ho => space_domIn_ok hs.dom ho
  have hits : (assignmentSpace (domIn s.dom vars)).mapM (fun o => indexList s.dom o)
      = .ok ((assignmentSpace (domIn s.dom vars)).map fun o =>
        (product (s.dom.map (selRange o))).map (ravel (cards s.dom))) :=
    mapM_ok fun o ho => indexList_eq hs.dom.keys (key o ho).1
  refine ⟨⟨domOut s.dom vars, (List.range (cards (domOut s.dom vars)).prod).map fun i =>
      f (((assignmentSpace (domIn s.dom vars)).map fun o =>
        (product (s.dom.map (selRange o))).map (ravel (cards s.dom))).map
        fun it => s.data.getD (it.getD i 0) default)⟩, ?_,
    ⟨hs.dom.domOut vars, by simp⟩, rfl, ?_⟩
  · rw [reduceVars]
    change (do
      let its ← (assignmentSpace (domIn s.dom vars)).mapM fun o => indexList s.dom o
      FlatStore.mk? (domOut s.dom vars) ((List.range (cards (domOut s.dom vars)).prod).map fun i =>
        f (its.map fun it => s.data.getD (it.getD i 0) default)) : Py _) = _
    rw [hits, py_ok_bind, mk?, if_pos (by simp)]
  · intro a ha
    have ha' : InDom (domOut s.dom vars) a := ha
    have hlt := ravel_lt (validIdx_coords ha')
    rw [sem]
    simp only [List.getD_eq_getElem?_getD, List.getElem?_map,
      List.getElem?_range hlt, Option.map_some, Option.getD_some, List.map_map]
    congr 1
    rw [variants_eq_assignmentSpace hdi.keys, List.map_map]
    refine List.map_congr_left fun o ho => ?_
    have hf := (key o ho).2
    have := selRange_getElem? (d := s.dom) (o := o) (a := a) (by rw [hf]; exact ha')
    rw [hf] at this
    simp [Function.comp, List.getElem?_map, this, FlatStore.sem]

theorem combine_ok [Nonempty S] (op : α → α → α) {s t : FlatStore V S α} (hs : s.WF) (ht : t.WF)
    (hc : SetCompat s.dom t.dom) :
    ∃ r, combine op s t = .ok r ∧ r.WF ∧ r.dom = Dict.merge s.dom t.dom ∧
      ∀ a, InDom r.dom a → r.sem a = op (s.sem a) (t.sem a) := by
  have hnd : DomOk (Dict.merge s.dom t.dom) := hs.dom.merge ht.dom
  let val : Obs V S → α := fun o =>
    op (s.data.getD ((firstIndex s.dom o).toOption.getD 0) default)
      (t.data.getD ((firstIndex t.dom o).toOption.getD 0) default)
  have hval : ∀ (o : Obs V S) (a : V → S), Covers (Dict.merge s.dom t.dom) o a →
      InDom (Dict.merge s.dom t.dom) a →
      (do let i ← firstIndex s.dom o
          let j ← firstIndex t.dom o
          return op (s.data.getD i default) (t.data.getD j default) : Py α) = .ok (val o) ∧
        val o = op (s.sem a) (t.sem a) := by
    intro o a hcov ha
    have f1 := firstIndex_full (a := a) hs.dom (inDom_of_merge_left hs.dom.keys hc ha)
      (fun v hv => hcov v (keys_sub_merge_left _ _ v hv))
    have f2 := firstIndex_full (a := a) ht.dom (inDom_of_merge_right ht.dom.keys ha)
      (fun v hv => hcov v (keys_sub_merge_right _ _ v hv))
    simp only [val, f1, f2, py_ok_bind]
    exact ⟨rfl, rfl⟩
  have hdata : (assignmentSpace (Dict.merge s.dom t.dom)).mapM (fun o => do
      let i ← firstIndex s.dom o
      let j ← firstIndex t.dom o
      return op (s.data.getD i default) (t.data.getD j default))
      = (.ok ((assignmentSpace (Dict.merge s.dom t.dom)).map val) : Py _) := by
    refine mapM_ok fun o ho => ?_
    obtain ⟨a, ha, hcov⟩ := exists_assignment_of_space hnd.keys ho
    exact (hval o a hcov ha).1
  have hlen : ((assignmentSpace (Dict.merge s.dom t.dom)).map val).length
      = (cards (Dict.merge s.dom t.dom)).prod := by
    simp [assignmentSpace, stateSpace, length_product, cards, Function.comp_def]
  refine ⟨⟨Dict.merge s.dom t.dom, (assignmentSpace (Dict.merge s.dom t.dom)).map val⟩,
    ?_, ⟨hnd, hlen⟩, rfl, ?_⟩
  · simp only [combine]
    rw [hdata, py_ok_bind, mk?, if_pos hlen]
  · intro a ha
    have ha' : InDom (Dict.merge s.dom t.dom) a := ha
    rw [FlatStore.sem]
    simp only [List.getD_eq_getElem?_getD, List.getElem?_map, assignmentSpace_getElem? ha',
      Option.map_some, Option.getD_some]
    exact (hval _ a (covers_map _ a fun v hv => hv) ha').2

end ListStore

namespace Numpy1DStore
open FlatStore

theorem foldl_set_getElem? {β : Type} (ps : List (Nat × β)) (l : List β)
    (hn : (ps.map Prod.fst).Nodup) {i : Nat} {x : β} (hi : i < l.length) (h : (i, x) ∈ ps) :
    (ps.foldl (fun l p => l.set p.1 p.2) l)[i]? = some x := by
  have aux : ∀ (ps : List (Nat × β)) (l : List β) (i : Nat), i ∉ ps.map Prod.fst →
      (ps.foldl (fun l p => l.set p.1 p.2) l)[i]? = l[i]? := by
    intro ps
    induction ps with
    | nil => intro l i _; rfl
    | cons p ps ih =>
      intro l i hi
      simp only [List.map_cons, List.mem_cons, not_or] at hi
      rw [List.foldl_cons, ih _ _ hi.2, List.getElem?_set_ne (Ne.symm hi.1)]
  induction ps generalizing l with
  | nil => simp at h
  | cons p ps ih =>
    rw [List.map_cons, List.nodup_cons] at hn
    rw [List.foldl_cons]
    rcases List.mem_cons.1 h with rfl | h
    · rw [aux ps _ _ hn.1]; simp [hi]
    · exact ih _ hn.2 (by simpa using hi) h

theorem combine_ok [Nonempty S] [Zero α] (op : α → α → α) {s t : FlatStore V S α} (hs : s.WF) (ht : t.WF)
    (hc : SetCompat s.dom t.dom) :
    ∃ r, combine op s t = .ok r ∧ r.WF ∧ r.dom = Dict.merge s.dom t.dom ∧
      ∀ a, InDom r.dom a → r.sem a = op (s.sem a) (t.sem a) := by
  have hnd : DomOk (Dict.merge s.dom t.dom) := hs.dom.merge ht.dom
  let N := Dict.merge s.dom t.dom
  -- the writes performed, as (position, value) pairs
  let pos : Obs V S → Nat := fun o => (firstIndex N o).toOption.getD 0
  let val : Obs V S → α := fun o =>
    op ((s.getValue o).toOption.getD default) ((t.getValue o).toOption.getD default)
  have hval : ∀ (o : Obs V S) (a : V → S), Covers N o a → InDom N a →
      s.getValue o = .ok (s.sem a) ∧ t.getValue o = .ok (t.sem a) ∧
        val o = op (s.sem a) (t.sem a) ∧ firstIndex N o = .ok (ravel (cards N) (coords N a)) ∧
        pos o = ravel (cards N) (coords N a) := by
    intro o a hcov ha
    have f1 := getValue_ok (a := a) hs (inDom_of_merge_left hs.dom.keys hc ha)
      (fun v hv => hcov v (keys_sub_merge_left _ _ v hv))
    have f2 := getValue_ok (a := a) ht (inDom_of_merge_right ht.dom.keys ha)
      (fun v hv => hcov v (keys_sub_merge_right _ _ v hv))
    have f3 := firstIndex_full (a := a) hnd ha hcov
    refine ⟨f1, f2, ?_, f3, ?_⟩
    · simp only [val, f1, f2]; rfl
    · change (firstIndex N o).toOption.getD 0 = _
      rw [show firstIndex N o = _ from f3]; rfl
  have hfold : ∀ (os : List (Obs V S)), (∀ o ∈ os, o ∈ assignmentSpace N) → ∀ l : List α,
      os.foldlM (fun (res : FlatStore V S α) o => do
        let x ← s.getValue o
        let y ← t.getValue o
        res.setValue (op x y) o) ⟨N, l⟩
      = (.ok ⟨N, (os.map fun o => (pos o, val o)).foldl (fun l p => l.set p.1 p.2) l⟩ : Py _) := by
    intro os
    induction os with
    | nil => intro _ l; rfl
    | cons o os ih =>
      intro hos l
      obtain ⟨a, ha, hcov⟩ := exists_assignment_of_space hnd.keys (hos o List.mem_cons_self)
      obtain ⟨f1, f2, f3, f4, f5⟩ := hval o a hcov ha
      rw [List.foldlM_cons]
      have : (do
        let x ← s.getValue o
        let y ← t.getValue o
        (⟨N, l⟩ : FlatStore V S α).setValue (op x y) o : Py _)
          = .ok ⟨N, l.set (pos o) (val o)⟩ := by
        rw [f1, f2, f3, f5]
        simp only [py_ok_bind, setValue]
        rw [f4]; rfl
      rw [this, py_ok_bind, ih (fun o ho => hos o (List.mem_cons_of_mem _ ho))]
      rfl
  have hlenf : ∀ (ps : List (Nat × α)) (l : List α),
      (ps.foldl (fun l p => l.set p.1 p.2) l).length = l.length := by
    intro ps
    induction ps with
    | nil => intro l; rfl
    | cons p ps ih => intro l; rw [List.foldl_cons, ih]; simp
  let D := ((assignmentSpace N).map fun o => (pos o, val o)).foldl
    (fun l p => l.set p.1 p.2) (List.replicate (cards N).prod (0 : α))
  have hD : D.length = (cards N).prod := by simp [D, hlenf]
  refine ⟨⟨N, D⟩, ?_, ⟨hnd, hD⟩, rfl, ?_⟩
  · simp only [combine, mk?, List.length_replicate, if_true, py_ok_bind]
    exact hfold _ (fun o ho => ho) _
  · intro a ha
    have ha' : InDom N a := ha
    have hget := assignmentSpace_getElem? ha'
    have hmem := List.mem_of_getElem? hget
    obtain ⟨_, _, f3, _, f5⟩ := hval _ a (covers_map N a fun v hv => hv) ha'
    have hnodup : (((assignmentSpace N).map fun o => (pos o, val o)).map Prod.fst).Nodup := by
      rw [List.map_map]
      refine List.Nodup.map_on ?_ (nodup_assignmentSpace hnd)
      intro o ho o' ho' he
      obtain ⟨b, hb, hcb⟩ := exists_assignment_of_space hnd.keys ho
      obtain ⟨b', hb', hcb'⟩ := exists_assignment_of_space hnd.keys ho'
      have e1 := (hval o b hcb hb).2.2.2.2
      have e2 := (hval o' b' hcb' hb').2.2.2.2
      simp only [Function.comp] at he
      rw [e1, e2] at he
      have g1 := assignmentSpace_getElem? hb
      have g2 := assignmentSpace_getElem? hb'
      rw [he, g2] at g1
      have g := Option.some.inj g1
      rw [space_eq_of_covers hnd.keys ho hcb, space_eq_of_covers hnd.keys ho' hcb', g]
    have := foldl_set_getElem? _ (List.replicate (cards N).prod (0 : α)) hnodup
      (i := ravel (cards N) (coords N a)) (x := op (s.sem a) (t.sem a))
      (by simpa using ravel_lt (validIdx_coords ha'))
      (by rw [List.mem_map]; exact ⟨_, hmem, by rw [f3, f5]⟩)
    rw [FlatStore.sem]
    simp only [List.getD_eq_getElem?_getD]
    change (D[ravel (cards N) (coords N a)]?).getD default = _
    rw [show D[ravel (cards N) (coords N a)]? = _ from this]; rfl

theorem merge_self {d : Dom V S} (hd : (Dict.keys d).Nodup) : Dict.merge d d = d := by
  rw [merge_eq_domUnion, domUnion]
  · rw [List.filter_eq_nil_iff.2, List.append_nil]
    intro p hp; simpa using Dict.mem_keys_of_mem hp
  · intro p hp q hq e
    have e1 : Dict.get? d p.1 = some p.2 := Dict.get?_of_mem hd hp
    have e2 : Dict.get? d q.1 = some q.2 := Dict.get?_of_mem hd hq
    rw [e, e2] at e1; exact (Option.some.inj e1).symm

theorem marginalize_ok [Nonempty S] [AddCommMonoid α] {s : FlatStore V S α} (hs : s.WF) (vars : List V) :
    ∃ r, marginalize s vars = .ok r ∧ r.WF ∧ r.dom = domOut s.dom vars ∧
      ∀ a, InDom r.dom a → r.sem a = ((variants (domIn s.dom vars) a).map s.sem).sum := by
  have hdi := hs.dom.domIn vars
  have hdo := hs.dom.domOut vars
  have hself : SetCompat (domOut s.dom vars) (domOut s.dom vars) := by
    intro p hp q hq e
    have e1 : Dict.get? (domOut s.dom vars) p.1 = some p.2 := Dict.get?_of_mem hdo.keys hp
    have e2 : Dict.get? (domOut s.dom vars) q.1 = some q.2 := Dict.get?_of_mem hdo.keys hq
    rw [e, e2] at e1; rw [Option.some.inj e1]
  have hres : ∀ o ∈ assignmentSpace (domIn s.dom vars), ∃ r, s.restrict o = .ok r ∧ r.WF ∧
      r.dom = domOut s.dom vars ∧ ∀ a, InDom (domOut s.dom vars) a → r.sem a = s.sem (over o a) := by
    intro o ho
    obtain ⟨h1, h2⟩ := space_domIn_ok hs.dom ho
    obtain ⟨r, r1, r2, r3, r4⟩ := restrict_ok hs h1
    exact ⟨r, r1, r2, r3.trans h2, fun a ha => r4 a (by rw [r3, h2]; exact ha)⟩
  have hfold : ∀ (os : List (Obs V S)), (∀ o ∈ os, o ∈ assignmentSpace (domIn s.dom vars)) →
      ∃ rs, os.mapM (fun o => s.restrict o) = .ok rs ∧
        ∀ acc : FlatStore V S α, acc.WF → acc.dom = domOut s.dom vars →
        ∃ r, rs.foldlM (combine (· + ·)) acc = .ok r ∧ r.WF ∧ r.dom = domOut s.dom vars ∧
          ∀ a, InDom (domOut s.dom vars) a →
            r.sem a = acc.sem a + (os.map fun o => s.sem (over o a)).sum := by
    intro os
    induction os with
    | nil => intro _; exact ⟨[], rfl, fun acc h1 h2 => ⟨acc, rfl, h1, h2, fun a _ => by simp⟩⟩
    | cons o os ih =>
      intro hos
      obtain ⟨r0, r1, r2, r3, r4⟩ := hres o (hos o List.mem_cons_self)
      obtain ⟨rs, m1, m2⟩ := ih fun o ho => hos o (List.mem_cons_of_mem _ ho)
      refine ⟨r0 :: rs, by rw [List.mapM_cons, r1, m1]; rfl, ?_⟩
      intro acc ha1 ha2
      obtain ⟨c, c1, c2, c3, c4⟩ := combine_ok (· + ·) ha1 r2 (by rw [ha2, r3]; exact hself)
      have c3' : c.dom = domOut s.dom vars := by rw [c3, ha2, r3, merge_self hdo.keys]
      obtain ⟨r, f1, f2, f3, f4⟩ := m2 c c2 c3'
      refine ⟨r, by rw [List.foldlM_cons, c1]; exact f1, f2, f3, ?_⟩
      intro a ha
      rw [f4 a ha, c4 a (by rw [c3']; exact ha), r4 a ha, List.map_cons, List.sum_cons, add_assoc]
  rcases hsp : assignmentSpace (domIn s.dom vars) with _ | ⟨o, os⟩
  · exfalso
    have hl : (assignmentSpace (domIn s.dom vars)).length = (cards (domIn s.dom vars)).prod := by
      simp [assignmentSpace, stateSpace, length_product, cards, Function.comp_def]
    rw [hsp] at hl
    have : 0 ∈ cards (domIn s.dom vars) := by
      by_contra h
      exact (List.prod_ne_zero h) hl.symm
    simp only [cards, List.mem_map] at this
    obtain ⟨p, hp, h0⟩ := this
    exact hdi.nonempty p hp (List.length_eq_zero_iff.1 h0)
  · obtain ⟨r0, r1, r2, r3, r4⟩ := hres o (by rw [hsp]; exact List.mem_cons_self)
    obtain ⟨rs, m1, m2⟩ := hfold os (fun o ho => by rw [hsp]; exact List.mem_cons_of_mem _ ho)
    obtain ⟨r, f1, f2, f3, f4⟩ := m2 r0 r2 r3
    refine ⟨r, ?_, f2, f3, ?_⟩
    · rw [marginalize]
      change ((assignmentSpace (domIn s.dom vars)).mapM (fun o => s.restrict o) >>= _) = _
      rw [hsp, List.mapM_cons, r1, m1]
      exact f1
    · intro a ha
      rw [f3] at ha
      rw [f4 a ha, r4 a ha, variants_eq_assignmentSpace hdi.keys, hsp]
      simp [Function.comp_def]

end Numpy1DStore
end Verif
