import Verif.Store.Numpy
import Verif.Sem

/-!
# Laws of the numpy store
-/

set_option linter.unusedSectionVars false
set_option linter.unusedSimpArgs false

namespace Verif.NumpyStore

variable {V S α : Type} [DecidableEq V] [DecidableEq S] [Inhabited α]

/-- Well-formed store: what the constructors and every operation establish. -/
structure WF (s : NumpyStore V S α) : Prop where
  dom : DomOk s.dom
  data : s.data.WF
  shape : s.data.shape = cards s.dom

/-- Value at a total assignment. -/
def sem (s : NumpyStore V S α) (a : V → S) : α := s.data.get (coords s.dom a)

theorem sem_congr {s : NumpyStore V S α} {a b : V → S} (h : ∀ v ∈ Dict.keys s.dom, a v = b v) :
    s.sem a = s.sem b := by rw [sem, sem, coords_congr h]

/-! ### Restriction -/

theorem get?_map_one (obs : Obs V S) (v : V) :
    Dict.get? (obs.map fun p => (p.1, ObsVal.one p.2)) v = (Dict.get? obs v).map ObsVal.one :=
  Dict.get?_map_snd obs (fun _ s => ObsVal.one s) v

/-- Index component of a variable under a scalar observation. -/
def ixOf (obs : Obs V S) (p : V × List S) : NdArray.Ix :=
  match Dict.get? obs p.1 with
  | none => .all
  | some s => .int (p.2.idxOf s)

theorem mapM_restrictItem {d : Dom V S} {obs : Obs V S} (ho : ObsOk d obs) :
    d.mapM (restrictItem (obs.map fun p => (p.1, ObsVal.one p.2))) =
      .ok (d.map fun p => (ixOf obs p, if p.1 ∈ Dict.keys obs then none else some p)) := by
  refine mapM_ok fun p hp => ?_
  rcases h : Dict.get? obs p.1 with _ | s
  · have : p.1 ∉ Dict.keys obs := Dict.get?_eq_none.1 h
    simp [restrictItem, get?_map_one, h, ixOf, this]
  · have : p.1 ∈ Dict.keys obs := Dict.get?_isSome.1 (by simp [h])
    simp [restrictItem, get?_map_one, h, ixOf, this, ObsVal.unwrap, stateIdx, ho p hp s h]

theorem sliceDims_ixOf (d : Dom V S) (obs : Obs V S) :
    NdArray.sliceDims (d.map (ixOf obs)) (cards d)
      = cards (d.filter fun p => p.1 ∉ Dict.keys obs) := by
  induction d with
  | nil => rfl
  | cons p d ih =>
    simp only [cards, List.map_cons] at ih ⊢
    rcases h : Dict.get? obs p.1 with _ | s
    · have : p.1 ∉ Dict.keys obs := Dict.get?_eq_none.1 h
      have hi : ixOf obs p = .all := by simp [ixOf, h]
      rw [hi, NdArray.sliceDims, ih]; simp [this]
    · have : p.1 ∈ Dict.keys obs := Dict.get?_isSome.1 (by simp [h])
      have hi : ixOf obs p = .int (p.2.idxOf s) := by simp [ixOf, h]
      rw [hi, NdArray.sliceDims, ih]
      · simp [this]
      · intro h; cases h

theorem fill_ixOf (d : Dom V S) (obs : Obs V S) (a : V → S) :
    NdArray.fill 0 (d.map (ixOf obs)) (coords (d.filter fun p => p.1 ∉ Dict.keys obs) a)
      = coords d (over obs a) := by
  induction d with
  | nil => rfl
  | cons p d ih =>
    rcases h : Dict.get? obs p.1 with _ | s
    · have : p.1 ∉ Dict.keys obs := Dict.get?_eq_none.1 h
      have hi : ixOf obs p = .all := by simp [ixOf, h]
      have e : over obs a p.1 = a p.1 := by simp [over, h]
      simp only [List.map_cons, hi, List.filter_cons, this, not_false_iff, decide_true, if_true,
        coords, NdArray.fill] at ih ⊢
      rw [ih, e]
    · have : p.1 ∈ Dict.keys obs := Dict.get?_isSome.1 (by simp [h])
      have hi : ixOf obs p = .int (p.2.idxOf s) := by simp [ixOf, h]
      have e : over obs a p.1 = s := by simp [over, h]
      simp only [List.map_cons, hi, List.filter_cons, this, not_true, decide_false, 
        coords, NdArray.fill] at ih ⊢
      rw [if_neg (by simp), ih, e]

theorem filterMap_arr_nil (d : Dom V S) (obs : Obs V S) :
    (d.map (ixOf obs)).filterMap NdArray.Ix.arrLen = [] := by
  rw [List.filterMap_eq_nil_iff]
  intro x hx
  obtain ⟨p, _, rfl⟩ := List.mem_map.1 hx
  unfold ixOf
  rcases Dict.get? obs p.1 with _ | s <;> rfl

theorem restrict_ok {s : NumpyStore V S α} (hs : s.WF) {obs : Obs V S} (ho : ObsOk s.dom obs) :
    ∃ r, s.restrict obs = .ok r ∧ r.WF ∧ r.dom = s.dom.filter (fun p => p.1 ∉ Dict.keys obs) ∧
      ∀ a, InDom r.dom a → r.sem a = s.sem (over obs a) := by
  have hd : (s.dom.filterMap fun p => if p.1 ∈ Dict.keys obs then none else some p)
      = s.dom.filter (fun p => p.1 ∉ Dict.keys obs) := by
    induction s.dom with
    | nil => rfl
    | cons p d ih => by_cases h : p.1 ∈ Dict.keys obs <;> simp [h, ih]
  have hidx : s.data.index (s.dom.map (ixOf obs)) = .ok (NdArray.build
      (NdArray.sliceDims (s.dom.map (ixOf obs)) s.data.shape)
      fun r => s.data.get (NdArray.fill 0 (s.dom.map (ixOf obs)) r)) := by
    rw [NdArray.index, filterMap_arr_nil]
  refine ⟨⟨s.dom.filter (fun p => p.1 ∉ Dict.keys obs), NdArray.build
      (cards (s.dom.filter (fun p => p.1 ∉ Dict.keys obs)))
      fun r => s.data.get (NdArray.fill 0 (s.dom.map (ixOf obs)) r)⟩, ?_, ?_, rfl, ?_⟩
  · simp only [restrict, restrictG, mapM_restrictItem ho, py_ok_bind, List.map_map,
      Function.comp_def, List.filterMap_map]
    rw [hidx, hd, hs.shape, sliceDims_ixOf]
    simp [mk?]
  · exact ⟨hs.dom.filter (fun v => v ∉ Dict.keys obs), NdArray.wf_build _ _, rfl⟩
  · intro a ha
    rw [sem, NdArray.get_build _ (validIdx_coords ha), fill_ixOf, sem]

theorem getValue_ok {s : NumpyStore V S α} (hs : s.WF) {obs : Obs V S} {a : V → S}
    (ha : InDom s.dom a) (hc : Covers s.dom obs a) : s.getValue obs = .ok (s.sem a) := by
  have ho : ObsOk s.dom obs := by
    intro p hp x hx
    have := hc p.1 (Dict.mem_keys_of_mem hp)
    rw [this] at hx; cases hx; exact ha p hp
  obtain ⟨r, h1, h2, h3, h4⟩ := restrict_ok hs ho
  have hdom : r.dom = [] := by
    rw [h3, List.filter_eq_nil_iff]
    intro p hp
    have := hc p.1 (Dict.mem_keys_of_mem hp)
    simpa using Dict.get?_isSome.1 (by rw [this]; rfl)
  have hsem := h4 a (by rw [hdom]; intro p hp; simp at hp)
  have hov : s.sem (over obs a) = s.sem a := sem_congr fun v hv => by
    rw [over_of_get? (hc v hv)]
  rw [hov] at hsem
  have hsh : r.data.shape = [] := by rw [h2.shape, hdom]; rfl
  have hfl : r.data.flat.length = 1 := by rw [h2.data, hsh]; rfl
  obtain ⟨x, hx⟩ := List.length_eq_one_iff.1 hfl
  rw [getValue, h1]
  simp only [py_ok_bind]
  rw [hsh, hx]
  simp [sem, NdArray.get, hsh, hx, hdom] at hsem
  simp [hsem, sem, NdArray.get]

/-! ### Reduction over variables -/

theorem mapM_getVarIndex {s : NumpyStore V S α} {vars : List V}
    (h : ∀ v ∈ vars, v ∈ Dict.keys s.dom) :
    vars.mapM s.getVarIndex = .ok (vars.map fun v => (Dict.keys s.dom).idxOf v) :=
  mapM_ok fun v hv => by simp [getVarIndex, h v hv]

theorem mask_eq {d : Dom V S} (hk : (Dict.keys d).Nodup) {vars : List V}
    (h : ∀ v ∈ vars, v ∈ Dict.keys d) :
    (List.range (cards d).length).map
      (fun i => decide (i ∈ vars.map fun v => (Dict.keys d).idxOf v))
      = d.map fun p => decide (p.1 ∈ vars) := by
  refine List.ext_getElem (by simp [cards]) ?_
  intro i h1 h2
  simp only [List.getElem_map, List.getElem_range]
  have hi : i < (Dict.keys d).length := by simpa [Dict.keys] using h2
  have hid : i < d.length := by simpa using h2
  have hki : (Dict.keys d)[i] = d[i].1 := by simp [Dict.keys]
  congr 1
  rw [eq_iff_iff, List.mem_map]
  constructor
  · rintro ⟨v, hv, rfl⟩
    have := List.getElem_idxOf (List.idxOf_lt_length_of_mem (h v hv))
    rw [← hki, this]; exact hv
  · intro hv
    refine ⟨_, hv, ?_⟩
    rw [← hki]; exact hk.idxOf_getElem i hi

theorem reduceVars_ok {s : NumpyStore V S α} (hs : s.WF) (f : List α → α) {vars : List V}
    (hsub : ∀ v ∈ vars, v ∈ Dict.keys s.dom) (hnd : vars.Nodup) :
    ∃ r, s.reduceVars f vars = .ok r ∧ r.WF ∧ r.dom = domOut s.dom vars ∧
      ∀ a, InDom r.dom a → r.sem a = f ((variants (domIn s.dom vars) a).map s.sem) := by
  have hax : (vars.map fun v => (Dict.keys s.dom).idxOf v).Nodup := by
    refine List.Nodup.map_on ?_ hnd
    intro x hx y hy hxy
    have h1 := List.getElem_idxOf (List.idxOf_lt_length_of_mem (hsub x hx))
    have h2 := List.getElem_idxOf (List.idxOf_lt_length_of_mem (hsub y hy))
    rw [← h1, ← h2]; simp only [hxy]
  have hsel : ∀ b, NdArray.sel b (s.dom.map fun p => decide (p.1 ∈ vars)) (cards s.dom)
      = cards (s.dom.filter fun p => decide (p.1 ∈ vars) = b) := fun b =>
    NdArray.sel_map b _ _ _
  have ef : (s.dom.filter fun p => decide (p.1 ∈ vars) = false) = domOut s.dom vars := by
    unfold domOut; congr 1; funext p; simp
  have et : (s.dom.filter fun p => decide (p.1 ∈ vars) = true) = domIn s.dom vars := by
    unfold domIn; congr 1; funext p; simp
  have hred : s.data.reduceAxes f (vars.map fun v => (Dict.keys s.dom).idxOf v) =
      NdArray.build (cards (domOut s.dom vars)) fun k =>
        f ((idxSpace (cards (domIn s.dom vars))).map fun r =>
          s.data.get (NdArray.weave (s.dom.map fun p => decide (p.1 ∈ vars)) k r)) := by
    rw [NdArray.reduceAxes, hs.shape, mask_eq hs.dom.keys hsub]
    simp only [hsel, ef, et]
  refine ⟨⟨domOut s.dom vars, NdArray.build (cards (domOut s.dom vars)) fun k =>
        f ((idxSpace (cards (domIn s.dom vars))).map fun r =>
          s.data.get (NdArray.weave (s.dom.map fun p => decide (p.1 ∈ vars)) k r))⟩,
    ?_, ⟨hs.dom.domOut vars, NdArray.wf_build _ _, rfl⟩, rfl, ?_⟩
  · simp only [reduceVars, mapM_getVarIndex hsub, py_ok_bind, hax, not_true, if_false, hred]
    simp [mk?, domOut]
  · intro a ha
    rw [sem, NdArray.get_build _ (validIdx_coords ha)]
    rw [map_idxSpace_cards (hs.dom.domIn vars) a]
    congr 1
    refine List.map_congr_left fun b hb => ?_
    rw [sem]
    congr 1
    have h1 : coords (domOut s.dom vars) a = coords (domOut s.dom vars) b := by
      refine coords_congr fun v hv => (variants_not_mem hb ?_).symm
      rw [keys_domIn]; rw [keys_domOut] at hv
      simp at hv ⊢; intro _; exact hv.2
    rw [h1, ← ef, ← et]
    exact NdArray.weave_filter _ _ _

/-! ### Combination -/

theorem coords_append (d e : Dom V S) (a : V → S) :
    coords (d ++ e) a = coords d a ++ coords e a := by simp [coords]

theorem extendDomain_ok {s : NumpyStore V S α} (hs : s.WF) {nd : Dom V S} (hnd : DomOk nd) :
    ∃ r, s.extendDomain nd = .ok r ∧ r.WF ∧ r.dom = domUnion s.dom nd ∧
      ∀ a, InDom r.dom a → r.sem a = s.sem a := by
  have hm : Dict.merge s.dom (nd.filter fun p => p.1 ∉ Dict.keys s.dom) = domUnion s.dom nd := by
    rw [merge_eq_domUnion]
    · simp [domUnion, List.filter_filter]
    · intro p hp q hq e
      exfalso
      simp at hq
      exact hq.2 (by rw [← e]; exact Dict.mem_keys_of_mem hp)
  have hc : s.data.shape ++ cards (nd.filter fun p => p.1 ∉ Dict.keys s.dom)
      = cards (domUnion s.dom nd) := by
    rw [hs.shape]; simp [cards, domUnion]
  refine ⟨⟨domUnion s.dom nd, s.data.repeatReshape
    (cards (nd.filter fun p => p.1 ∉ Dict.keys s.dom))⟩, ?_, ?_, rfl, ?_⟩
  · rw [extendDomain]
    simp only [hm, mk?]
    rw [if_pos]
    exact hc
  · exact ⟨hs.dom.domUnion hnd, NdArray.wf_repeatReshape hs.data _, hc⟩
  · intro a ha
    have ha' : InDom (domUnion s.dom nd) a := ha
    simp only [sem]
    conv_lhs => rw [domUnion, coords_append]
    rw [NdArray.get_repeatReshape hs.data]
    · rw [hs.shape]; exact validIdx_coords ha'.left
    · exact validIdx_coords (ha'.sub fun p hp => by
        rw [domUnion]; exact List.mem_append_right _ hp)

theorem reorder_ok {s : NumpyStore V S α} (hs : s.WF) {nd : Dom V S} (hnd : DomOk nd)
    (hperm : (Dict.keys nd).Perm (Dict.keys s.dom)) (hc : Compat s.dom nd) :
    ∃ r, s.reorder (Dict.keys nd) = .ok r ∧ r.WF ∧ r.dom = nd ∧
      ∀ a, InDom r.dom a → r.sem a = s.sem a := by
  have hmem : ∀ p ∈ nd, p ∈ s.dom := by
    intro p hp
    obtain ⟨st, hst⟩ := Dict.mem_keys.1 (hperm.mem_iff.1 (Dict.mem_keys_of_mem hp))
    have : st = p.2 := hc _ hst p hp rfl
    rw [this] at hst; exact hst
  have hmem' : ∀ p ∈ s.dom, p ∈ nd := by
    intro p hp
    obtain ⟨st, hst⟩ := Dict.mem_keys.1 (hperm.mem_iff.2 (Dict.mem_keys_of_mem hp))
    have : p.2 = st := hc _ hp _ hst rfl
    rw [← this] at hst; exact hst
  have hlen : nd.length = s.dom.length := by
    have := hperm.length_eq; simpa [Dict.keys] using this
  by_cases hl : (Dict.keys s.dom).length < 2
  · have heq : s.dom = nd := by
      have : s.dom.length < 2 := by simpa [Dict.keys] using hl
      match hsd : s.dom, hnn : nd, this, hlen with
      | [], [], _, _ => rfl
      | [p], [q], _, _ =>
        have := hmem' p (by simp [hsd])
        simpa using this
    exact ⟨s, by simp [reorder, hl], hs, heq, fun a _ => rfl⟩
  · have hf1 : (Dict.keys nd).filter (fun v => v ∈ Dict.keys s.dom) = Dict.keys nd := by
      rw [List.filter_eq_self]; intro v hv; simpa using hperm.mem_iff.1 hv
    have hf2 : (Dict.keys s.dom).filter (fun v => v ∉ Dict.keys nd) = [] := by
      rw [List.filter_eq_nil_iff]; intro v hv; simpa using hperm.mem_iff.2 hv
    have hdm : (Dict.keys nd).mapM (fun v => do
        let d ← Dict.get s.dom v; return (v, d) : V → Py (V × List S)) = .ok nd := by
      rw [Dict.keys]
      have : ∀ p ∈ nd, (fun v => (do let d ← Dict.get s.dom v; return (v, d) : Py (V × List S))) p.1
          = .ok p := by
        intro p hp
        have hg : Dict.get s.dom p.1 = .ok p.2 := get_dom_of_mem hs.dom.keys (hmem p hp)
        simp [hg]
      rw [List.mapM_map]
      have := mapM_ok (f := (fun v => (do let d ← Dict.get s.dom v; return (v, d) : Py (V × List S))) ∘ Prod.fst)
        (g := id) (l := nd) this
      simpa using this
    have hsh : (s.data.moveaxis ((Dict.keys s.dom).map fun v => (Dict.keys nd).idxOf v)).shape
        = cards nd := by
      rw [NdArray.moveaxis, NdArray.shape_build, hs.shape]
      refine List.ext_getElem (by simp [cards, hlen]) ?_
      intro i h1 h2
      simp only [List.getElem_map, List.getElem_range]
      have hi : i < nd.length := by simpa [cards] using h2
      have hkin : nd[i].1 ∈ Dict.keys s.dom := hperm.mem_iff.1 (Dict.mem_keys_of_mem (List.getElem_mem hi))
      have hki : i < (Dict.keys nd).length := by simpa [Dict.keys] using hi
      have hkk : (Dict.keys nd)[i] = nd[i].1 := by simp [Dict.keys]
      have hj : ((Dict.keys s.dom).map fun v => (Dict.keys nd).idxOf v).idxOf i
          = (Dict.keys s.dom).idxOf nd[i].1 := by
        have hjl := List.idxOf_lt_length_of_mem hkin
        have hnd2 : ((Dict.keys s.dom).map fun v => (Dict.keys nd).idxOf v).Nodup := by
          refine List.Nodup.map_on ?_ hs.dom.keys
          intro x hx y hy hxy
          have h1 := List.getElem_idxOf (List.idxOf_lt_length_of_mem (hperm.mem_iff.2 hx))
          have h2 := List.getElem_idxOf (List.idxOf_lt_length_of_mem (hperm.mem_iff.2 hy))
          rw [← h1, ← h2]; simp only [hxy]
        have hval : ((Dict.keys s.dom).map fun v => (Dict.keys nd).idxOf v)[
            (Dict.keys s.dom).idxOf nd[i].1]'(by simpa using hjl) = i := by
          rw [List.getElem_map, List.getElem_idxOf, ← hkk]
          exact hnd.keys.idxOf_getElem i hki
        have := hnd2.idxOf_getElem ((Dict.keys s.dom).idxOf nd[i].1) (by simpa using hjl)
        rw [hval] at this; exact this
      rw [hj]
      have hjl : (Dict.keys s.dom).idxOf nd[i].1 < s.dom.length := by
        have := List.idxOf_lt_length_of_mem hkin; simpa [Dict.keys] using this
      rw [List.getD_eq_getElem?_getD, List.getElem?_eq_getElem (by simpa [cards] using hjl), Option.getD_some]
      simp only [cards, List.getElem_map]
      have hp1 : s.dom[(Dict.keys s.dom).idxOf nd[i].1].1 = nd[i].1 := by
        exact (Dict.getElem_keys s.dom _ (List.idxOf_lt_length_of_mem hkin)).symm.trans
          (List.getElem_idxOf _)
      have := hc _ (List.getElem_mem hjl) nd[i] (List.getElem_mem hi) hp1
      rw [this]
    refine ⟨⟨nd, s.data.moveaxis ((Dict.keys s.dom).map fun v => (Dict.keys nd).idxOf v)⟩,
      ?_, ⟨hnd, NdArray.wf_build _ _, hsh⟩, rfl, ?_⟩
    · rw [reorder, if_neg hl]
      simp only [hf1, hf2, List.append_nil, hdm, py_ok_bind, mk?, hsh, if_true]
    · intro a ha
      have ha' : InDom nd a := ha
      simp only [sem]
      rw [NdArray.moveaxis, NdArray.get_build]
      · congr 1
        have hkd : Dict.keys s.dom = s.dom.map Prod.fst := rfl
        rw [List.map_map, hkd, List.map_map]
        refine List.map_congr_left fun p hp => ?_
        simp only [Function.comp]
        have hpk : p.1 ∈ Dict.keys nd := Dict.mem_keys_of_mem (hmem' p hp)
        have hil := List.idxOf_lt_length_of_mem hpk
        have hil' : (Dict.keys nd).idxOf p.1 < nd.length := by simpa [Dict.keys] using hil
        change (coords nd a).getD ((Dict.keys nd).idxOf p.1) 0 = _
        rw [List.getD_eq_getElem?_getD, List.getElem?_eq_getElem (by simpa [coords] using hil'), Option.getD_some]
        simp only [coords, List.getElem_map]
        have hp1 : nd[(Dict.keys nd).idxOf p.1].1 = p.1 := by
          exact (Dict.getElem_keys nd _ hil).symm.trans (List.getElem_idxOf _)
        have := hc p hp _ (List.getElem_mem hil') hp1.symm
        rw [← this, hp1]
      · rw [NdArray.moveaxis, NdArray.shape_build] at hsh
        rw [hsh]
        exact validIdx_coords ha'

theorem align_ok {s : NumpyStore V S α} (hs : s.WF) {nd : Dom V S} (hnd : DomOk nd)
    (hsub : ∀ v ∈ Dict.keys s.dom, v ∈ Dict.keys nd) (hc : Compat s.dom nd) :
    ∃ r, s.align nd = .ok r ∧ r.WF ∧ r.dom = nd ∧
      ∀ a, InDom r.dom a → r.sem a = s.sem a := by
  -- first the extension
  obtain ⟨t, ht, htw, htp, htc, hts⟩ : ∃ t, s.extendIf nd = .ok t ∧ t.WF ∧
      (Dict.keys nd).Perm (Dict.keys t.dom) ∧ Compat t.dom nd ∧
      ∀ a, InDom nd a → t.sem a = s.sem a := by
    by_cases hl : (Dict.keys s.dom).length < nd.length
    · obtain ⟨r, h1, h2, h3, h4⟩ := extendDomain_ok hs hnd
      have hcomp : Compat r.dom nd := by
        rw [h3]
        intro p hp q hq e
        rcases mem_domUnion.1 hp with h | h
        · exact hc p h q hq e
        · have e1 : Dict.get? nd p.1 = some p.2 := Dict.get?_of_mem hnd.keys h.1
          have e2 : Dict.get? nd q.1 = some q.2 := Dict.get?_of_mem hnd.keys hq
          rw [e, e2] at e1; exact (Option.some.inj e1).symm
      refine ⟨r, by rw [extendIf, if_pos hl, h1], h2, ?_, hcomp, ?_⟩
      · rw [List.perm_ext_iff_of_nodup hnd.keys h2.dom.keys]
        intro v
        rw [h3, mem_keys_domUnion]
        exact ⟨.inr, fun h => h.elim (hsub v) id⟩
      · intro a ha
        refine h4 a ?_
        rw [h3]
        intro p hp
        rcases mem_domUnion.1 hp with h | h
        · obtain ⟨st, hst⟩ := Dict.mem_keys.1 (hsub _ (Dict.mem_keys_of_mem h))
          have e : p.2 = st := hc p h _ hst rfl
          have := ha _ hst
          simpa [e] using this
        · exact ha p h.1
    · refine ⟨s, by rw [extendIf, if_neg hl], hs, ?_, hc, fun a _ => rfl⟩
      have hsp := List.subperm_of_subset hs.dom.keys hsub
      refine (hsp.perm_of_length_le ?_).symm
      simpa [Dict.keys] using hl
  by_cases hv : Dict.keys t.dom = Dict.keys nd
  · refine ⟨t, ?_, htw, ?_, ?_⟩
    · rw [align, ht]; simp [reorderIf, hv]
    · refine List.ext_getElem (by have := congrArg List.length hv; simpa [Dict.keys] using this) ?_
      intro i h1 h2
      have e1 : t.dom[i].1 = nd[i].1 := by
        have : (Dict.keys t.dom)[i]'(by simpa [Dict.keys] using h1)
            = (Dict.keys nd)[i]'(by simpa [Dict.keys] using h2) := by simp only [hv]
        simpa [Dict.keys] using this
      exact Prod.ext e1 (htc _ (List.getElem_mem h1) _ (List.getElem_mem h2) e1)
    · intro a ha
      refine hts a ?_
      intro p hp
      have : p.1 ∈ Dict.keys t.dom := by rw [hv]; exact Dict.mem_keys_of_mem hp
      obtain ⟨st, hst⟩ := Dict.mem_keys.1 this
      have e : st = p.2 := htc _ hst p hp rfl
      have := ha _ hst
      simpa [e] using this
  · obtain ⟨r, h1, h2, h3, h4⟩ := reorder_ok htw hnd htp htc
    refine ⟨r, ?_, h2, h3, fun a ha => ?_⟩
    · rw [align, ht]; simp [reorderIf, hv, h1]
    · rw [h4 a ha, hts a (by rw [← h3]; exact ha)]

theorem Compat.symm {d1 d2 : Dom V S} (h : Compat d1 d2) : Compat d2 d1 :=
  fun p hp q hq e => (h q hq p hp e.symm).symm

theorem combine_ok (op : α → α → α) {s t : NumpyStore V S α} (hs : s.WF) (ht : t.WF)
    (hc : Compat s.dom t.dom) :
    ∃ r, s.combine op t = .ok r ∧ r.WF ∧ r.dom = domUnion s.dom t.dom ∧
      ∀ a, InDom r.dom a → r.sem a = op (s.sem a) (t.sem a) := by
  have hm := merge_eq_domUnion hc
  have hnd : DomOk (domUnion s.dom t.dom) := hs.dom.domUnion ht.dom
  have c1 : Compat s.dom (domUnion s.dom t.dom) := by
    intro p hp q hq e
    rcases mem_domUnion.1 hq with h | h
    · have e1 : Dict.get? s.dom p.1 = some p.2 := Dict.get?_of_mem hs.dom.keys hp
      have e2 : Dict.get? s.dom q.1 = some q.2 := Dict.get?_of_mem hs.dom.keys h
      rw [e, e2] at e1; exact (Option.some.inj e1).symm
    · exact hc p hp q h.1 e
  have c2 : Compat t.dom (domUnion s.dom t.dom) := by
    intro p hp q hq e
    rcases mem_domUnion.1 hq with h | h
    · exact (hc q h p hp e.symm).symm
    · have e1 : Dict.get? t.dom p.1 = some p.2 := Dict.get?_of_mem ht.dom.keys hp
      have e2 : Dict.get? t.dom q.1 = some q.2 := Dict.get?_of_mem ht.dom.keys h.1
      rw [e, e2] at e1; exact (Option.some.inj e1).symm
  obtain ⟨s', hs1, hs2, hs3, hs4⟩ := align_ok hs hnd (fun v hv => mem_keys_domUnion.2 (.inl hv)) c1
  obtain ⟨t', ht1, ht2, ht3, ht4⟩ := align_ok ht hnd (fun v hv => mem_keys_domUnion.2 (.inr hv)) c2
  have hsh : s'.data.shape = t'.data.shape := by rw [hs2.shape, ht2.shape, hs3, ht3]
  refine ⟨⟨domUnion s.dom t.dom, NdArray.build s'.data.shape fun idx =>
      op (s'.data.get (NdArray.clip s'.data.shape idx)) (t'.data.get (NdArray.clip t'.data.shape idx))⟩,
    ?_, ⟨hnd, NdArray.wf_build _ _, ?_⟩, rfl, ?_⟩
  · simp only [combine, hm, hs1, ht1, py_ok_bind, NdArray.zipWithB_same op hsh, mk?]
    rw [if_pos]
    rw [NdArray.shape_build, hs2.shape, hs3]
  · rw [NdArray.shape_build, hs2.shape, hs3]
  · intro a ha
    have ha' : InDom (domUnion s.dom t.dom) a := ha
    have hv : ValidIdx s'.data.shape (coords (domUnion s.dom t.dom) a) := by
      rw [hs2.shape, hs3]; exact validIdx_coords ha'
    simp only [sem]
    rw [NdArray.get_build _ hv, NdArray.clip_valid hv, NdArray.clip_valid (hsh ▸ hv)]
    have e1 := hs4 a (by rw [hs3]; exact ha')
    have e2 := ht4 a (by rw [ht3]; exact ha')
    simp only [sem, hs3, ht3] at e1 e2
    rw [e1, e2]

end Verif.NumpyStore
