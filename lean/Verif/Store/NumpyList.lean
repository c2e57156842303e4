import Verif.Store.NumpyLemmas

/-!
# `NumpyStore.restrict` with one list of states
-/

set_option linter.unusedSectionVars false
set_option linter.unusedSimpArgs false

namespace Verif
namespace NumpyStore

variable {V S α : Type} [DecidableEq V] [DecidableEq S] [Inhabited α]

open NdArray

theorem dropWhile_alls {d : List Ix} (h : ∀ x ∈ d, x = Ix.all) (l : List Ix) :
    (d ++ l).dropWhile (·.isAll) = l.dropWhile (·.isAll) := by
  induction d with
  | nil => rfl
  | cons x d ih =>
    have := h x List.mem_cons_self
    subst this
    rw [List.cons_append, List.dropWhile_cons_of_pos rfl]
    exact ih fun y hy => h y (List.mem_cons_of_mem _ hy)

theorem takeWhile_alls {d : List Ix} (h : ∀ x ∈ d, x = Ix.all) (is : List Nat) (l : List Ix) :
    (d ++ Ix.arr is :: l).takeWhile (·.isAll) = d := by
  induction d with
  | nil => rfl
  | cons x d ih =>
    have := h x List.mem_cons_self
    subst this
    rw [List.cons_append, List.takeWhile_cons_of_pos rfl]
    rw [ih fun y hy => h y (List.mem_cons_of_mem _ hy)]

theorem contiguous_one {d1 d2 : List Ix} (h1 : ∀ x ∈ d1, x = Ix.all) (h2 : ∀ x ∈ d2, x = Ix.all)
    (is : List Nat) : contiguous (d1 ++ Ix.arr is :: d2) = true := by
  rw [contiguous, dropWhile_alls h1, List.dropWhile_cons_of_neg (by simp [Ix.isAll]),
    List.reverse_cons, dropWhile_alls (by intro x hx; exact h2 x (by simpa using hx)),
    List.dropWhile_cons_of_neg (by simp [Ix.isAll])]
  simp [Ix.isAll]

theorem sliceDims_alls (n : Nat) (sh : List Nat) (hn : n = sh.length) (is : List Ix) (sh' : List Nat) :
    sliceDims (List.replicate n Ix.all ++ is) (sh ++ sh') = sh ++ sliceDims is sh' := by
  subst hn
  induction sh with
  | nil => rfl
  | cons c sh ih => simp [List.replicate_succ, sliceDims, ih]

theorem fill_alls (k n : Nat) (idx : List Nat) (hn : n = idx.length) (is : List Ix) (r : List Nat) :
    fill k (List.replicate n Ix.all ++ is) (idx ++ r) = idx ++ fill k is r := by
  subst hn
  induction idx with
  | nil => rfl
  | cons c sh ih => simp [List.replicate_succ, fill, ih]

theorem filterMap_arrLen_alls (n : Nat) : (List.replicate n Ix.all).filterMap Ix.arrLen = [] := by
  induction n with
  | zero => rfl
  | succ n ih => simp [List.replicate_succ, Ix.arrLen, ih]

/-- One variable restricted to two or more of its states, listed in domain order. -/
theorem restrictG_one {d1 d2 : Dom V S} {v : V} {st l : List S} {s : NumpyStore V S α}
    (hs : s.WF) (hdom : s.dom = d1 ++ (v, st) :: d2) (hl : l.Sublist st) (h2 : 2 ≤ l.length) :
    ∃ r, s.restrictG [(v, .many l)] = .ok r ∧ r.WF ∧ r.dom = d1 ++ (v, l) :: d2 ∧
      ∀ a, InDom r.dom a → r.sem a = s.sem a := by
  have hd := hs.dom
  rw [hdom] at hd
  have hk := hd.keys
  simp only [Dict.keys_append, Dict.keys_cons] at hk
  have hv1 : v ∉ Dict.keys d1 := by
    have := (List.nodup_append'.1 hk).2.2
    intro h; exact this h List.mem_cons_self
  have hv2 : v ∉ Dict.keys d2 := (List.nodup_cons.1 (List.nodup_append'.1 hk).2.1).1
  have hstnd : st.Nodup := hd.states (v, st) (by simp)
  have hlnd : l.Nodup := hl.nodup hstnd
  have hfilter : st.filter (fun x => x ∈ l) = l := by
    have e1 : (st.filter (fun x => x ∈ l)).Perm l := by
      refine (List.perm_ext_iff_of_nodup (hstnd.filter _) hlnd).2 fun x => ?_
      simp only [List.mem_filter, decide_eq_true_eq]
      exact ⟨fun h => h.2, fun h => ⟨hl.subset h, h⟩⟩
    have e2 : l.Sublist (st.filter fun x => x ∈ l) := by
      have := hl.filter (fun x => decide (x ∈ l))
      rwa [List.filter_eq_self.2 (by intro x hx; simpa using hx)] at this
    exact (e2.eq_of_length e1.length_eq.symm).symm
  have hidx : l.mapM (stateIdx st) = .ok (l.map fun x => st.idxOf x) :=
    mapM_ok fun x hx => by simp [stateIdx, hl.subset hx]
  have hunw : (ObsVal.many l).unwrap = ObsVal.many l := by
    match l, h2 with
    | x :: y :: t, _ => rfl
  have hitem : restrictItem [(v, ObsVal.many l)] (v, st)
      = .ok (.arr (l.map fun x => st.idxOf x), some (v, l)) := by
    simp [restrictItem, Dict.get?, hunw, hidx, hfilter]
  have hother : ∀ d : Dom V S, v ∉ Dict.keys d →
      d.mapM (restrictItem [(v, ObsVal.many l)]) = .ok (d.map fun p => (Ix.all, some p)) := by
    intro d hvd
    refine mapM_ok fun p hp => ?_
    have : v ≠ p.1 := by rintro rfl; exact hvd (Dict.mem_keys_of_mem hp)
    simp [restrictItem, Dict.get?, this]
  have hmap : s.dom.mapM (restrictItem [(v, ObsVal.many l)])
      = .ok (d1.map (fun p => (Ix.all, some p)) ++ (Ix.arr (l.map fun x => st.idxOf x), some (v, l)) ::
          d2.map (fun p => (Ix.all, some p))) := by
    rw [hdom, List.mapM_append, hother d1 hv1, py_ok_bind, List.mapM_cons, hitem, py_ok_bind,
      hother d2 hv2]; rfl
  let is := l.map fun x => st.idxOf x
  let items := List.replicate d1.length Ix.all ++ Ix.arr is :: List.replicate d2.length Ix.all
  have hfst : (d1.map (fun p => (Ix.all, some p)) ++ (Ix.arr (l.map fun x => st.idxOf x), some (v, l)) ::
          d2.map (fun p => (Ix.all, some p))).map Prod.fst = items := by
    simp [items, is, Function.comp_def, List.map_const']
  have hsnd : (d1.map (fun p => (Ix.all, some p)) ++ (Ix.arr (l.map fun x => st.idxOf x), some (v, l)) ::
          d2.map (fun p => (Ix.all, some p))).filterMap Prod.snd = d1 ++ (v, l) :: d2 := by
    simp [List.filterMap_append, List.filterMap_map, Function.comp_def]
  have hcont : contiguous items = true :=
    contiguous_one (by intro x hx; exact List.eq_of_mem_replicate hx)
      (by intro x hx; exact List.eq_of_mem_replicate hx) _
  have htw : (items.takeWhile (·.isAll)).length = d1.length := by
    rw [takeWhile_alls (by intro x hx; exact List.eq_of_mem_replicate hx)]; simp
  have hsh : s.data.shape = cards d1 ++ st.length :: cards d2 := by
    rw [hs.shape, hdom]; simp [cards]
  have hdims : sliceDims items s.data.shape = cards d1 ++ cards d2 := by
    rw [hsh, sliceDims_alls _ _ (by simp [cards])]
    congr 1
    simp only [sliceDims]
    have := sliceDims_alls d2.length (cards d2) (by simp [cards]) [] []
    simpa [sliceDims] using this
  have harr : items.filterMap Ix.arrLen = [l.length] := by
    simp [items, List.filterMap_append, filterMap_arrLen_alls, Ix.arrLen, is]
  have hindex : s.data.index items = .ok (build (cards d1 ++ l.length :: cards d2)
      fun idx => s.data.get (fill (idx.getD d1.length 0) items
        (idx.take d1.length ++ idx.drop (d1.length + 1)))) := by
    rw [NdArray.index, harr]
    simp only [List.any_nil, Bool.false_eq_true, if_false, hcont, if_true, htw, hdims]
    rw [List.take_append_of_le_length (by simp [cards]), List.take_of_length_le (by simp [cards]),
      List.drop_append_of_le_length (by simp [cards]), List.drop_of_length_le (by simp [cards])]
    rfl
  have hnd : DomOk (d1 ++ (v, l) :: d2) := by
    refine ⟨?_, ?_, ?_⟩
    · simpa [Dict.keys_append] using hd.keys
    · intro p hp
      simp only [List.mem_append, List.mem_cons] at hp
      rcases hp with h | rfl | h
      · exact hd.states p (by simp [h])
      · exact hlnd
      · exact hd.states p (by simp [h])
    · intro p hp
      simp only [List.mem_append, List.mem_cons] at hp
      rcases hp with h | rfl | h
      · exact hd.nonempty p (by simp [h])
      · rintro h; simp only at h; rw [h] at h2; simp at h2
      · exact hd.nonempty p (by simp [h])
  have hcards : cards d1 ++ l.length :: cards d2 = cards (d1 ++ (v, l) :: d2) := by simp [cards]
  refine ⟨⟨d1 ++ (v, l) :: d2, build (cards d1 ++ l.length :: cards d2)
      fun idx => s.data.get (fill (idx.getD d1.length 0) items
        (idx.take d1.length ++ idx.drop (d1.length + 1)))⟩, ?_, ⟨hnd, wf_build _ _, hcards⟩, rfl, ?_⟩
  · rw [restrictG, hmap, py_ok_bind, hfst, hindex, py_ok_bind, hsnd, mk?, shape_build, if_pos hcards]
  · intro a ha
    have hva := validIdx_coords ha
    rw [sem]
    simp only
    rw [← hcards] at hva
    rw [get_build _ hva]
    have hc : coords (d1 ++ (v, l) :: d2) a = coords d1 a ++ l.idxOf (a v) :: coords d2 a := by
      simp [coords]
    have hav : a v ∈ l := ha (v, l) (by simp)
    have e1 : (coords d1 a ++ l.idxOf (a v) :: coords d2 a).getD d1.length 0 = l.idxOf (a v) := by
      rw [List.getD_eq_getElem?_getD, List.getElem?_append_right (by simp [coords])]
      simp [coords]
    have e2 : (coords d1 a ++ l.idxOf (a v) :: coords d2 a).take d1.length = coords d1 a := by
      rw [List.take_append_of_le_length (by simp [coords]), List.take_of_length_le (by simp [coords])]
    have e3 : (coords d1 a ++ l.idxOf (a v) :: coords d2 a).drop (d1.length + 1) = coords d2 a := by
      rw [List.drop_append, List.drop_of_length_le (by simp [coords])]
      simp [coords]
    rw [hc, e1, e2, e3, sem, hdom]
    congr 1
    rw [fill_alls _ _ _ (by simp [coords])]
    simp only [fill]
    have := fill_alls (l.idxOf (a v)) d2.length (coords d2 a) (by simp [coords]) [] []
    simp only [List.append_nil, fill] at this
    rw [this]
    simp only [coords, List.map_append, List.map_cons]
    congr 2
    simp only [is, List.getD_eq_getElem?_getD, List.getElem?_map, List.getElem?_idxOf hav]
    rfl

end NumpyStore
end Verif
