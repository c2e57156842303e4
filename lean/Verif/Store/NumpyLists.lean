import Mathlib.Data.List.TakeWhile
import Verif.Store.NumpyList

/-!
# `NumpyStore.restrict` with states and lists of states together
-/

set_option linter.unusedSectionVars false
set_option linter.unusedSimpArgs false

namespace Verif

namespace NdArray

/-- The index components that are not slices are together, unless a slice is between two of them. -/
theorem contiguous_false {l : List Ix} : contiguous l = false ↔
    ∃ x y z, [x, y, z].Sublist l ∧ x.isAll = false ∧ y.isAll = true ∧ z.isAll = false := by
  constructor
  · intro h
    rw [contiguous, List.all_eq_false] at h
    obtain ⟨y, hy, hya⟩ := h
    have hya : y.isAll = true := by simpa using hya
    set m := (l.dropWhile (·.isAll)).reverse.dropWhile (·.isAll) with hm
    have e1 : l = l.takeWhile (·.isAll) ++ l.dropWhile (·.isAll) := List.takeWhile_append_dropWhile.symm
    have e2 : (l.dropWhile (·.isAll)).reverse = (l.dropWhile (·.isAll)).reverse.takeWhile (·.isAll) ++ m := List.takeWhile_append_dropWhile.symm
    have e3 : l.dropWhile (·.isAll) = m.reverse ++ ((l.dropWhile (·.isAll)).reverse.takeWhile (·.isAll)).reverse := by
      rw [← List.reverse_append, ← e2, List.reverse_reverse]
    cases hmm : m with
    | nil => rw [hmm] at hy; cases hy
    | cons z m' =>
      have hz : z.isAll = false := by
        have := List.head?_dropWhile_not (p := fun x : Ix => x.isAll) (l := (l.dropWhile (·.isAll)).reverse)
        rw [← hm, hmm] at this
        simpa using this
      have hy' : y ∈ m'.reverse := by
        rw [hmm] at hy
        rcases List.mem_cons.1 hy with rfl | hy
        · rw [hya] at hz; cases hz
        · simpa using hy
      rw [hmm, List.reverse_cons, List.append_assoc] at e3
      cases hr : m'.reverse with
      | nil => rw [hr] at hy'; cases hy'
      | cons x t =>
        have hx : x.isAll = false := by
          have := List.head?_dropWhile_not (p := fun x : Ix => x.isAll) (l := l)
          rw [e3, hr] at this
          simpa using this
        rw [hr] at hy'
        have hyt : y ∈ t := by
          rcases List.mem_cons.1 hy' with rfl | h
          · rw [hya] at hx; cases hx
          · exact h
        refine ⟨x, y, z, ?_, hx, hya, hz⟩
        rw [e1, e3, hr]
        refine List.Sublist.trans ?_ (List.sublist_append_right _ _)
        refine List.Sublist.cons_cons x ?_
        refine List.Sublist.append (l₁ := [y]) (l₂ := t) (r₁ := [z]) (List.singleton_sublist.2 hyt) ?_
        exact List.singleton_sublist.2 (by simp)
  · rintro ⟨x, y, z, hs, hx, hy, hz⟩
    by_contra hc
    have hc : contiguous l = true := by simpa using hc
    rw [contiguous, List.all_eq_true] at hc
    set m := (l.dropWhile (·.isAll)).reverse.dropWhile (·.isAll) with hm
    set pre := l.takeWhile (·.isAll) with hpre
    set post := ((l.dropWhile (·.isAll)).reverse.takeWhile (·.isAll)).reverse with hpost
    have e1 : l = pre ++ (m.reverse ++ post) := by
      rw [hpost, hm, ← List.reverse_append, List.takeWhile_append_dropWhile, List.reverse_reverse, hpre, List.takeWhile_append_dropWhile]
    have p1 : ∀ w ∈ pre, w.isAll = true := fun w hw => (List.mem_takeWhile_imp hw)
    have p2 : ∀ w ∈ post, w.isAll = true := fun w hw => List.mem_takeWhile_imp (List.mem_reverse.1 hw)
    have p3 : ∀ w ∈ m.reverse, w.isAll = false := fun w hw => by simpa using hc w (List.mem_reverse.1 hw)
    rw [e1, List.sublist_append_iff] at hs
    obtain ⟨a, b, hab, ha, hb⟩ := hs
    have ha0 : a = [] := by
      cases a with
      | nil => rfl
      | cons w a =>
        rw [List.cons_append] at hab
        injection hab with h1 _
        have := p1 w (ha.subset List.mem_cons_self)
        rw [← h1, hx] at this; cases this
    subst ha0
    rw [List.nil_append] at hab
    subst hab
    rw [List.sublist_append_iff] at hb
    obtain ⟨c, d, hcd, hc', hd⟩ := hb
    cases c with
    | nil =>
      rw [List.nil_append] at hcd
      have := p2 x (hd.subset (by rw [← hcd]; simp))
      rw [hx] at this; cases this
    | cons w c =>
      rw [List.cons_append] at hcd
      injection hcd with _ h2
      cases c with
      | nil =>
        rw [List.nil_append] at h2
        have := p2 z (hd.subset (by rw [← h2]; simp))
        rw [hz] at this; cases this
      | cons w' c =>
        rw [List.cons_append] at h2
        injection h2 with h3 _
        have := p3 w' (hc'.subset (by simp))
        rw [← h3, hy] at this; cases this

end NdArray

namespace NumpyStore

variable {V S α : Type} [DecidableEq V] [DecidableEq S] [Inhabited α]

open NdArray

/-- What is observed of a variable, a one-element list being its element. -/
def seen (obs : List (V × ObsVal S)) (v : V) : Option (ObsVal S) := (Dict.get? obs v).map ObsVal.unwrap

/-- The component of the index for one variable -/
def ixG (obs : List (V × ObsVal S)) (p : V × List S) : Ix :=
  match seen obs p.1 with
  | none => .all
  | some (.one s) => .int (p.2.idxOf s)
  | some (.many l) => .arr (l.map fun x => p.2.idxOf x)

/-- What is left of the variable -/
def domG (obs : List (V × ObsVal S)) (p : V × List S) : Option (V × List S) :=
  match seen obs p.1 with
  | none => some p
  | some (.one _) => none
  | some (.many l) => some (p.1, p.2.filter fun x => x ∈ l)

/-- The states that are named exist. -/
def SeenOk (obs : List (V × ObsVal S)) (p : V × List S) : Prop :=
  match seen obs p.1 with
  | none => True
  | some (.one s) => s ∈ p.2
  | some (.many l) => ∀ s ∈ l, s ∈ p.2

theorem restrictItem_eq {obs : List (V × ObsVal S)} {p : V × List S} (h : SeenOk obs p) : restrictItem obs p = .ok (ixG obs p, domG obs p) := by
  rw [SeenOk, seen] at h
  rw [restrictItem, ixG, domG, seen]
  cases hg : Dict.get? obs p.1 with
  | none => rfl
  | some o =>
    rw [hg] at h
    simp only [Option.map_some] at h ⊢
    cases hu : o.unwrap with
    | one s =>
      rw [hu] at h
      have h : s ∈ p.2 := h
      simp [stateIdx, h]
    | many l =>
      rw [hu] at h
      have h : ∀ s ∈ l, s ∈ p.2 := h
      have : l.mapM (stateIdx p.2) = .ok (l.map fun x => p.2.idxOf x) := mapM_ok fun x hx => by simp [stateIdx, h x hx]
      simp [this]

/-- The variables that are not observed -/
def free (obs : List (V × ObsVal S)) (d : Dom V S) : Dom V S := d.filter fun p => (seen obs p.1).isNone

/-- The assignment that is read, `k` being the place in the list -/
noncomputable def readAt [Nonempty S] (obs : List (V × ObsVal S)) (k : Nat) (a : V → S) : V → S := fun v =>
  match seen obs v with
  | none => a v
  | some (.one s) => s
  | some (.many l) => (l[k]?).getD (a v)

theorem fill_ix [Nonempty S] (obs : List (V × ObsVal S)) (k : Nat) (a : V → S) {d : Dom V S}
    (hk : ∀ p ∈ d, ∀ l, seen obs p.1 = some (.many l) → k < l.length) :
    fill k (d.map (ixG obs)) (coords (free obs d) a) = coords d (readAt obs k a) := by
  induction d with
  | nil => rfl
  | cons p d ih =>
    have ih := ih fun q hq => hk q (List.mem_cons_of_mem _ hq)
    have hp := hk p List.mem_cons_self
    cases hs : seen obs p.1 with
    | none =>
      have e1 : ixG obs p = .all := by rw [ixG, hs]
      have e2 : free obs (p :: d) = p :: free obs d := by rw [free, List.filter_cons_of_pos (by rw [hs]; rfl)]; rfl
      have e3 : readAt obs k a p.1 = a p.1 := by rw [readAt, hs]
      rw [List.map_cons, e1, e2]
      simp only [coords, List.map_cons, fill] at ih ⊢
      rw [ih, e3]
    | some o =>
      have e2 : free obs (p :: d) = free obs d := by rw [free, List.filter_cons_of_neg (by rw [hs]; simp)]; rfl
      cases o with
      | one s =>
        have e1 : ixG obs p = .int (p.2.idxOf s) := by rw [ixG, hs]
        have e3 : readAt obs k a p.1 = s := by rw [readAt, hs]
        rw [List.map_cons, e1, e2]
        simp only [coords, List.map_cons, fill] at ih ⊢
        rw [ih, e3]
      | many l =>
        have e1 : ixG obs p = .arr (l.map fun x => p.2.idxOf x) := by rw [ixG, hs]
        have hkl := hp l hs
        have e3 : readAt obs k a p.1 = l[k] := by rw [readAt, hs]; simp [hkl]
        rw [List.map_cons, e1, e2]
        simp only [coords, List.map_cons, fill] at ih ⊢
        rw [ih, e3]
        simp [List.getD_eq_getElem?_getD, hkl]

theorem sliceDims_ix (obs : List (V × ObsVal S)) (d : Dom V S) : sliceDims (d.map (ixG obs)) (cards d) = cards (free obs d) := by
  induction d with
  | nil => rfl
  | cons p d ih =>
    cases hs : seen obs p.1 with
    | none =>
      have e1 : ixG obs p = .all := by rw [ixG, hs]
      have e2 : free obs (p :: d) = p :: free obs d := by rw [free, List.filter_cons_of_pos (by rw [hs]; rfl)]; rfl
      rw [List.map_cons, e1, e2]
      simp only [cards, List.map_cons, sliceDims] at ih ⊢
      rw [ih]
    | some o =>
      have e2 : free obs (p :: d) = free obs d := by rw [free, List.filter_cons_of_neg (by rw [hs]; simp)]; rfl
      cases o with
      | one s =>
        have e1 : ixG obs p = .int (p.2.idxOf s) := by rw [ixG, hs]
        rw [List.map_cons, e1, e2]
        simp only [cards, List.map_cons, sliceDims] at ih ⊢
        rw [ih]
      | many l =>
        have e1 : ixG obs p = .arr (l.map fun x => p.2.idxOf x) := by rw [ixG, hs]
        rw [List.map_cons, e1, e2]
        simp only [cards, List.map_cons, sliceDims] at ih ⊢
        rw [ih]

/-- The variables restricted to lists -/
def listed (obs : List (V × ObsVal S)) (d : Dom V S) : List (List S) := d.filterMap fun p =>
  match seen obs p.1 with
  | some (.many l) => some l
  | _ => none

theorem arrLen_ix (obs : List (V × ObsVal S)) (d : Dom V S) : (d.map (ixG obs)).filterMap Ix.arrLen = (listed obs d).map List.length := by
  rw [listed, List.filterMap_map, List.map_filterMap]
  refine List.filterMap_congr fun p _ => ?_
  show Ix.arrLen (ixG obs p) = _
  rw [ixG]
  cases hs : seen obs p.1 with
  | none => rfl
  | some o => cases o <;> simp [Ix.arrLen]

theorem length_domG (obs : List (V × ObsVal S)) (d : Dom V S) :
    (d.filterMap (domG obs)).length = (free obs d).length + (listed obs d).length := by
  induction d with
  | nil => rfl
  | cons p d ih =>
    rw [free, listed] at *
    rw [List.filterMap_cons, List.filter_cons, List.filterMap_cons, domG]
    cases hs : seen obs p.1 with
    | none => simp only [Option.isNone_none, if_true, List.length_cons]; omega
    | some o =>
      cases o with
      | one s => simpa using ih
      | many l => simp only [Option.isNone_some, Bool.false_eq_true, if_false, List.length_cons]; omega

theorem restrictG_eq {s : NumpyStore V S α} {obs : List (V × ObsVal S)} (h : ∀ p ∈ s.dom, SeenOk obs p) :
    s.restrictG obs = (do let data ← s.data.index (s.dom.map (ixG obs)); mk? (s.dom.filterMap (domG obs)) data) := by
  have : s.dom.mapM (restrictItem obs) = .ok (s.dom.map fun p => (ixG obs p, domG obs p)) := mapM_ok fun p hp => restrictItem_eq (h p hp)
  rw [restrictG, this, py_ok_bind, List.map_map, List.filterMap_map]
  rfl

theorem restrictG_dom {s r : NumpyStore V S α} {obs : List (V × ObsVal S)} (h : ∀ p ∈ s.dom, SeenOk obs p) (hr : s.restrictG obs = .ok r) :
    r.dom = s.dom.filterMap (domG obs) := by
  rw [restrictG_eq h] at hr
  cases hi : s.data.index (s.dom.map (ixG obs)) with
  | error e => rw [hi] at hr; cases hr
  | ok data =>
    rw [hi, py_ok_bind, mk?] at hr
    split at hr
    · cases hr; rfl
    · cases hr

/-- Two lists: numpy pairs them, and the array has an axis too few. -/
theorem restrictG_lists {s : NumpyStore V S α} (hs : s.WF) {obs : List (V × ObsVal S)} (h : ∀ p ∈ s.dom, SeenOk obs p) (h2 : 2 ≤ (listed obs s.dom).length) :
    s.restrictG obs = .error .valueError ∨ s.restrictG obs = .error .indexError := by
  rw [restrictG_eq h, NdArray.index, arrLen_ix]
  cases hl : listed obs s.dom with
  | nil => rw [hl] at h2; simp at h2
  | cons l ls =>
    simp only [List.map_cons]
    split
    · exact .inr rfl
    · refine .inl ?_
      rw [py_ok_bind, mk?, if_neg]
      intro he
      have := congrArg List.length he
      rw [shape_build, hs.shape, sliceDims_ix] at this
      have hlen := length_domG obs s.dom
      rw [hl] at h2 hlen
      simp only [cards, List.length_append, List.length_cons, List.length_take, List.length_drop, List.length_map] at this h2 hlen
      omega

/-- One list: where numpy puts its axis -/
theorem takeWhile_ix {A C : List Ix} {is : List Nat} (hc : contiguous (A ++ Ix.arr is :: C) = true) :
    ((A ++ Ix.arr is :: C).takeWhile (·.isAll)).length = (A.filter (·.isAll)).length := by
  have hn : ¬ ∃ x y z, [x, y, z].Sublist (A ++ Ix.arr is :: C) ∧ x.isAll = false ∧ y.isAll = true ∧ z.isAll = false := by
    rw [← contiguous_false, hc]; simp
  clear hc
  induction A with
  | nil => simp [Ix.isAll]
  | cons x A ih =>
    by_cases hx : x.isAll = true
    · rw [List.cons_append, List.takeWhile_cons_of_pos hx, List.filter_cons_of_pos hx, List.length_cons, List.length_cons, ih]
      rintro ⟨a, b, c, h1, h2⟩
      exact hn ⟨a, b, c, h1.cons _, h2⟩
    · rw [List.cons_append, List.takeWhile_cons_of_neg hx, List.filter_cons_of_neg hx, List.length_nil, eq_comm, List.length_eq_zero_iff,
        List.filter_eq_nil_iff]
      intro y hy hya
      refine hn ⟨x, y, Ix.arr is, ?_, by simpa using hx, hya, rfl⟩
      rw [List.cons_append]
      exact List.Sublist.cons_cons x (List.Sublist.append (l₁ := [y]) (r₁ := [Ix.arr is]) (List.singleton_sublist.2 hy) (List.singleton_sublist.2 (by simp)))

theorem isAll_ix (obs : List (V × ObsVal S)) (p : V × List S) : (ixG obs p).isAll = (seen obs p.1).isNone := by
  rw [ixG]
  cases seen obs p.1 with
  | none => rfl
  | some o => cases o <;> rfl

theorem filter_isAll (obs : List (V × ObsVal S)) (d : Dom V S) : ((d.map (ixG obs)).filter (·.isAll)).length = (free obs d).length := by
  rw [List.filter_map, List.length_map, free]
  congr 1
  refine List.filter_congr fun p _ => ?_
  simp only [Function.comp_apply, isAll_ix]

/-- The observation has one list, the one of `v`. -/
structure OneList (obs : List (V × ObsVal S)) (A : Dom V S) (v : V) (st l : List S) (C : Dom V S) : Prop where
  list : seen obs v = some (.many l)
  sub : ∀ s ∈ l, s ∈ st
  nodup : l.Nodup
  two : 2 ≤ l.length
  others : ∀ p ∈ A ++ C, (seen obs p.1 = none) ∨ ∃ s ∈ p.2, seen obs p.1 = some (.one s)

namespace OneList
variable {obs : List (V × ObsVal S)} {A C : Dom V S} {v : V} {st l : List S}

theorem ok (h : OneList obs A v st l C) : ∀ p ∈ A ++ (v, st) :: C, SeenOk obs p := by
  intro p hp
  have : p = (v, st) ∨ p ∈ A ++ C := by simp at hp ⊢; tauto
  rcases this with rfl | hp
  · rw [SeenOk, h.list]; exact h.sub
  · rcases h.others p hp with h1 | ⟨s, hs, h1⟩
    · rw [SeenOk, h1]; trivial
    · rw [SeenOk, h1]; exact hs

theorem other {D : Dom V S} (hD : ∀ p ∈ D, (seen obs p.1 = none) ∨ ∃ s ∈ p.2, seen obs p.1 = some (.one s)) :
    listed obs D = [] ∧ D.filterMap (domG obs) = free obs D := by
  induction D with
  | nil => exact ⟨rfl, rfl⟩
  | cons p D ih =>
    obtain ⟨i1, i2⟩ := ih fun q hq => hD q (List.mem_cons_of_mem _ hq)
    rw [listed, free] at *
    rw [List.filterMap_cons, List.filterMap_cons, domG]
    rcases hD p List.mem_cons_self with h1 | ⟨s, _, h1⟩
    · rw [h1, List.filter_cons_of_pos (by rw [h1]; rfl)]
      exact ⟨i1, by simpa using i2⟩
    · rw [h1, List.filter_cons_of_neg (by rw [h1]; simp)]
      exact ⟨i1, i2⟩

theorem parts (h : OneList obs A v st l C) :
    (A ++ (v, st) :: C).filterMap (domG obs) = free obs A ++ (v, st.filter fun x => x ∈ l) :: free obs C ∧
      listed obs (A ++ (v, st) :: C) = [l] ∧ free obs (A ++ (v, st) :: C) = free obs A ++ free obs C := by
  obtain ⟨a1, a2⟩ := other (D := A) fun p hp => h.others p (List.mem_append_left _ hp)
  obtain ⟨c1, c2⟩ := other (D := C) fun p hp => h.others p (List.mem_append_right _ hp)
  have l1 : domG obs (v, st) = some (v, st.filter fun x => x ∈ l) := by rw [domG, h.list]
  refine ⟨?_, ?_, ?_⟩
  · rw [List.filterMap_append, a2, List.filterMap_cons, l1, c2]
  · have : listed obs (A ++ (v, st) :: C) = listed obs A ++ listed obs ((v, st) :: C) := List.filterMap_append
    rw [this, a1, List.nil_append, listed, List.filterMap_cons]
    simp only [h.list]
    rw [show List.filterMap _ C = [] from c1]
  · rw [free, List.filter_append, List.filter_cons_of_neg (by rw [h.list]; simp)]; rfl

theorem length_filter (h : OneList obs A v st l C) (hst : st.Nodup) : (st.filter fun x => x ∈ l).length = l.length := by
  refine List.Perm.length_eq ((List.perm_ext_iff_of_nodup (hst.filter _) h.nodup).2 fun x => ?_)
  simp only [List.mem_filter, decide_eq_true_eq]
  exact ⟨fun h => h.2, fun hx => ⟨h.sub x hx, hx⟩⟩

theorem domOk (h : OneList obs A v st l C) {d : Dom V S} (hdom : d = A ++ (v, st) :: C) (hd : DomOk d) :
    DomOk (free obs A ++ (v, st.filter fun x => x ∈ l) :: free obs C) := by
  have hstn : st.Nodup := hd.states (v, st) (by rw [hdom]; simp)
  have hlen := h.length_filter hstn
  have hsub : ∀ p ∈ free obs A ++ (v, (st.filter fun x => x ∈ l)) :: free obs C, p = (v, (st.filter fun x => x ∈ l)) ∨ p ∈ d := by
    intro p hp
    rw [hdom]
    rcases List.mem_append.1 hp with hp | hp
    · exact .inr (List.mem_append_left _ (List.mem_filter.1 hp).1)
    · rcases List.mem_cons.1 hp with hp | hp
      · exact .inl hp
      · exact .inr (List.mem_append_right _ (List.mem_cons_of_mem _ (List.mem_filter.1 hp).1))
  refine ⟨?_, ?_, ?_⟩
  · have hk := hd.keys
    rw [hdom] at hk
    have : (Dict.keys (free obs A ++ (v, (st.filter fun x => x ∈ l)) :: free obs C)).Sublist (Dict.keys (A ++ (v, st) :: C)) := by
      rw [Dict.keys_append, Dict.keys_append, Dict.keys_cons, Dict.keys_cons]
      refine List.Sublist.append ?_ (List.Sublist.cons_cons _ ?_)
      · exact (List.filter_sublist).map Prod.fst
      · exact (List.filter_sublist).map Prod.fst
    exact this.nodup hk
  · intro p hp
    rcases hsub p hp with rfl | hp
    · exact hstn.filter _
    · exact hd.states p hp
  · intro p hp
    rcases hsub p hp with rfl | hp
    · intro h0
      have : (st.filter fun x => x ∈ l).length = 0 := by rw [show (st.filter fun x => x ∈ l) = [] from h0]; rfl
      have := h.two
      omega
    · exact hd.nonempty p hp

end OneList

/-- One list, and numpy puts its axis where it belongs: the `k`-th remaining state of `v` has the values of the `k`-th state of the list. -/
theorem restrictG_list [Nonempty S] {s : NumpyStore V S α} (hs : s.WF) {obs : List (V × ObsVal S)} {A C : Dom V S} {v : V} {st l : List S}
    (hdom : s.dom = A ++ (v, st) :: C) (h : OneList obs A v st l C)
    (hpos : contiguous (s.dom.map (ixG obs)) = true ∨ free obs A = []) :
    ∃ r, s.restrictG obs = .ok r ∧ r.WF ∧ r.dom = free obs A ++ (v, st.filter fun x => x ∈ l) :: free obs C ∧
      ∀ a, InDom r.dom a → r.sem a = s.sem (readAt obs ((st.filter fun x => x ∈ l).idxOf (a v)) a) := by
  obtain ⟨e1, e2, e3⟩ := h.parts
  have hok : ∀ p ∈ s.dom, SeenOk obs p := by rw [hdom]; exact h.ok
  have hd := hs.dom
  have hstn : st.Nodup := hd.states (v, st) (by rw [hdom]; simp)
  have hlen := h.length_filter hstn
  set st' := st.filter fun x => x ∈ l with hst'
  have hb : (if contiguous (s.dom.map (ixG obs)) then ((s.dom.map (ixG obs)).takeWhile (·.isAll)).length else 0) = (free obs A).length := by
    rcases hpos with hc | h0
    · rw [if_pos hc]
      have hm : s.dom.map (ixG obs) = A.map (ixG obs) ++ Ix.arr (l.map fun x => st.idxOf x) :: C.map (ixG obs) := by
        rw [hdom, List.map_append, List.map_cons, show ixG obs (v, st) = Ix.arr (l.map fun x => st.idxOf x) by rw [ixG, h.list]]
      rw [hm] at hc ⊢
      rw [takeWhile_ix hc, filter_isAll]
    · rw [h0, List.length_nil]
      split
      · next hc =>
        have hm : s.dom.map (ixG obs) = A.map (ixG obs) ++ Ix.arr (l.map fun x => st.idxOf x) :: C.map (ixG obs) := by
          rw [hdom, List.map_append, List.map_cons, show ixG obs (v, st) = Ix.arr (l.map fun x => st.idxOf x) by rw [ixG, h.list]]
        rw [hm] at hc ⊢
        rw [takeWhile_ix hc, filter_isAll, h0]; rfl
      · rfl
  have hdims : sliceDims (s.dom.map (ixG obs)) s.data.shape = cards (free obs A) ++ cards (free obs C) := by
    rw [hs.shape, sliceDims_ix, hdom, e3]; simp [cards]
  have hcards : cards (free obs A) ++ l.length :: cards (free obs C) = cards (free obs A ++ (v, st') :: free obs C) := by
    simp [cards, hlen]
  have hindex : s.data.index (s.dom.map (ixG obs)) = .ok (build (cards (free obs A) ++ l.length :: cards (free obs C))
      fun idx => s.data.get (fill (idx.getD (free obs A).length 0) (s.dom.map (ixG obs))
        (idx.take (free obs A).length ++ idx.drop ((free obs A).length + 1)))) := by
    rw [NdArray.index, arrLen_ix, hdom, e2, ← hdom]
    simp only [List.map_cons, List.map_nil, List.any_nil, Bool.false_eq_true, if_false, hb, hdims]
    rw [List.take_append_of_le_length (by simp [cards]), List.take_of_length_le (by simp [cards]),
      List.drop_append_of_le_length (by simp [cards]), List.drop_of_length_le (by simp [cards])]
    rfl
  have hnd : DomOk (free obs A ++ (v, st') :: free obs C) := h.domOk hdom hd
  refine ⟨⟨free obs A ++ (v, st') :: free obs C, build (cards (free obs A) ++ l.length :: cards (free obs C))
      fun idx => s.data.get (fill (idx.getD (free obs A).length 0) (s.dom.map (ixG obs))
        (idx.take (free obs A).length ++ idx.drop ((free obs A).length + 1)))⟩, ?_, ⟨hnd, wf_build _ _, hcards⟩, rfl, ?_⟩
  · rw [restrictG_eq hok, hindex, py_ok_bind, hdom, e1, mk?, shape_build, if_pos hcards]
  · intro a ha
    have hva := validIdx_coords ha
    rw [sem]
    simp only
    rw [← hcards] at hva
    rw [get_build _ hva]
    have hc : coords (free obs A ++ (v, st') :: free obs C) a = coords (free obs A) a ++ st'.idxOf (a v) :: coords (free obs C) a := by
      simp [coords]
    have hav : a v ∈ st' := ha (v, st') (by simp)
    have c1 : (coords (free obs A) a ++ st'.idxOf (a v) :: coords (free obs C) a).getD (free obs A).length 0 = st'.idxOf (a v) := by
      rw [List.getD_eq_getElem?_getD, List.getElem?_append_right (by simp [coords])]
      simp [coords]
    have c2 : (coords (free obs A) a ++ st'.idxOf (a v) :: coords (free obs C) a).take (free obs A).length = coords (free obs A) a := by
      rw [List.take_append_of_le_length (by simp [coords]), List.take_of_length_le (by simp [coords])]
    have c3 : (coords (free obs A) a ++ st'.idxOf (a v) :: coords (free obs C) a).drop ((free obs A).length + 1) = coords (free obs C) a := by
      rw [List.drop_append, List.drop_of_length_le (by simp [coords])]
      simp [coords]
    rw [hc, c1, c2, c3, sem]
    congr 1
    have hf : coords (free obs A) a ++ coords (free obs C) a = coords (free obs s.dom) a := by
      rw [hdom, e3]; simp [coords]
    rw [hf]
    refine fill_ix obs _ a fun p hp l' hl' => ?_
    have : l' ∈ listed obs s.dom := List.mem_filterMap.2 ⟨p, hp, by rw [hl']⟩
    rw [hdom, e2, List.mem_singleton] at this
    rw [this, ← hlen]
    exact List.idxOf_lt_length_iff.2 hav

/-- One list whose axis numpy moves to the front: refused unless the variables before it have as many states as the list. -/
theorem restrictG_moved {s : NumpyStore V S α} (hs : s.WF) {obs : List (V × ObsVal S)} {A C : Dom V S} {v : V} {st l : List S}
    (hdom : s.dom = A ++ (v, st) :: C) (h : OneList obs A v st l C) (hc : contiguous (s.dom.map (ixG obs)) = false) :
    (∃ r, s.restrictG obs = .ok r) ↔ ∀ p ∈ free obs A, p.2.length = l.length := by
  obtain ⟨e1, e2, e3⟩ := h.parts
  have hok : ∀ p ∈ s.dom, SeenOk obs p := by rw [hdom]; exact h.ok
  have hstn : st.Nodup := hs.dom.states (v, st) (by rw [hdom]; simp)
  have hlen := h.length_filter hstn
  have hdims : sliceDims (s.dom.map (ixG obs)) s.data.shape = cards (free obs A) ++ cards (free obs C) := by
    rw [hs.shape, sliceDims_ix, hdom, e3]; simp [cards]
  have hrot : ∀ (n : Nat) (c d : List Nat), n :: (c ++ d) = c ++ n :: d ↔ ∀ x ∈ c, x = n := by
    intro n c d
    induction c with
    | nil => simp
    | cons x c ih =>
      rw [List.cons_append, List.cons_append, List.cons.injEq, List.forall_mem_cons]
      constructor
      · rintro ⟨h1, h2⟩
        subst h1
        exact ⟨rfl, ih.1 h2⟩
      · rintro ⟨h1, h2⟩
        subst h1
        exact ⟨rfl, ih.2 h2⟩
  have key : ∀ (sh : List Nat) (f : List Nat → α), sh = l.length :: (cards (free obs A) ++ cards (free obs C)) →
      ((∃ r, mk? (s.dom.filterMap (domG obs)) (build sh f) = .ok r) ↔ ∀ p ∈ free obs A, p.2.length = l.length) := by
    intro sh f hsh
    have hcards : cards (s.dom.filterMap (domG obs)) = cards (free obs A) ++ l.length :: cards (free obs C) := by
      rw [hdom, e1]; simp [cards, hlen]
    have : sh = cards (s.dom.filterMap (domG obs)) ↔ ∀ p ∈ free obs A, p.2.length = l.length := by
      rw [hsh, hcards, hrot, cards, List.forall_mem_map]
    rw [mk?, shape_build, ← this]
    by_cases hh : sh = cards (s.dom.filterMap (domG obs))
    · rw [if_pos hh]; simp [hh]
    · rw [if_neg hh]; simp [hh]
  rw [restrictG_eq hok, NdArray.index, arrLen_ix, hdom, e2, ← hdom]
  simp only [List.map_cons, List.map_nil, List.any_nil, Bool.false_eq_true, if_false, hc, py_ok_bind]
  exact key _ _ (by rw [hdims]; simp)

end NumpyStore
end Verif
