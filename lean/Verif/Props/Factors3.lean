import Verif.Props.Factors
import Verif.Store.NumpyList

/-!
# Properties of factors and domains (C08, C11, C13, C14, C18)
-/

set_option linter.unusedSectionVars false
set_option linter.unusedSimpArgs false

namespace Verif.Props
open Verif

variable {V S α : Type} [DecidableEq V] [DecidableEq S] [Nonempty S] [Inhabited α] [AddCommMonoid α]

/-! ### C08: restriction to lists of states -/

/-- The states observed with a single value. -/
def scalarPart (obs : List (V × ObsVal S)) : Obs V S :=
  obs.filterMap fun p => match p.2 with
    | .one s => some (p.1, s)
    | .many _ => none

/-- The observation names states of the domain; lists have no repetition and are not empty. -/
def ListObsOk (d : Dom V S) (obs : List (V × ObsVal S)) : Prop :=
  ∀ p ∈ d, ∀ o, Dict.get? obs p.1 = some o → match o with
    | .one s => s ∈ p.2
    | .many l => l ≠ [] ∧ l.Nodup ∧ ∀ s ∈ l, s ∈ p.2

/-- **C08** as stated. -/
def ListRestriction (V S α : Type) [DecidableEq V] [DecidableEq S] [Inhabited α] [AddCommMonoid α] : Prop :=
  ∀ (f : Factor (storeOf .numpy : StoreImpl V S α)) (obs : List (V × ObsVal S)), f.WF → ListObsOk f.dom obs →
    ∃ r, f.restrictG obs = .ok r ∧
      (∀ v, v ∈ r.vars ↔ v ∈ f.vars ∧ v ∉ Dict.keys (scalarPart obs)) ∧
      (∀ p ∈ r.dom, ∀ l, Dict.get? obs p.1 = some (.many l) → p.2.Perm l) ∧
      ∀ o, FullObs r.dom o → ∃ x, f.getValue (scalarPart obs ++ o) = .ok x ∧ r.getValue o = .ok x

/-- **C08 is false**: listing the two states of X in the other order returns the values in the
requested order under labels in domain order. -/
theorem C08_violation_order : ¬ ListRestriction Char Char ℤ := by
  intro h
  have hf0 : Factor.make (storeOf .numpy : StoreImpl Char Char ℤ) dX [1, 2] none none
      = .ok ⟨(⟨dX, ⟨[2], [1, 2]⟩⟩ : NumpyStore Char Char ℤ), []⟩ := rfl
  obtain ⟨hf, hfd⟩ := wf_of_make .numpy dX_ok hf0
  obtain ⟨r, h1, _, _, h4⟩ := h _ [('X', .many ['b', 'a'])] hf (by
    rw [hfd]; simp [ListObsOk, dX, Dict.get?])
  have hr : r = ⟨(⟨dX, ⟨[2], [2, 1]⟩⟩ : NumpyStore Char Char ℤ), []⟩ := (Except.ok.inj h1).symm
  subst hr
  obtain ⟨x, e1, e2⟩ := h4 [('X', 'a')] (by
    intro p hp
    have : p = ('X', ['a', 'b']) := by
      have : p ∈ dX := hp
      simpa [dX] using this
    subst this; exact ⟨'a', by decide, rfl⟩)
  have e1' : (Except.ok 1 : Py ℤ) = .ok x := e1
  have e2' : (Except.ok 2 : Py ℤ) = .ok x := e2
  cases e1'
  exact absurd (Except.ok.inj e2') (by decide)

/-- Domain with three variables used for the other two violations. -/
def dXYZ : Dom Char Char := [('X', ['a', 'b']), ('Y', ['c', 'd']), ('Z', ['f', 'g'])]
theorem dXYZ_ok : DomOk dXYZ := ⟨by decide, by decide, by decide⟩

/-- Two lists are zipped: the selection raises instead of returning the 2x2 sub-table. -/
theorem C08_violation_two_lists :
    (do let f ← Factor.make (storeOf .numpy : StoreImpl Char Char ℤ) dXYZ [1, 2, 3, 4, 5, 6, 7, 8] none none
        let r ← f.restrictG [('X', .many ['a', 'b']), ('Y', .many ['c', 'd'])]
        r.valuesList) = (.error .valueError : Py _) := by decide +kernel

/-- A state and a list separated by another variable: the axes are exchanged.  The value at
(Y=c, Z=g) should be that of X=a, Y=c, Z=g, which is 2. -/
theorem C08_violation_axes :
    (do let f ← Factor.make (storeOf .numpy : StoreImpl Char Char ℤ) dXYZ [1, 2, 3, 4, 5, 6, 7, 8] none none
        let r ← f.restrictG [('X', .one 'a'), ('Z', .many ['f', 'g'])]
        let x ← f.getValue [('X', 'a'), ('Y', 'c'), ('Z', 'g')]
        let y ← r.getValue [('Y', 'c'), ('Z', 'g')]
        return (r.vars, x, y)) = (.ok (['Y', 'Z'], 2, 3) : Py _) := by decide +kernel

/-- **C08** (partial) one variable restricted to at least two of its states, listed in
domain order.  Missing: other orders, several restricted variables in one call and one-element
lists, for which the statement is false. -/
theorem C08_list_restriction_partial {f : Factor (storeOf .numpy : StoreImpl V S α)} (hf : f.WF)
    {v : V} {st l : List S} (hv : (v, st) ∈ f.dom) (hl : l.Sublist st) (h2 : 2 ≤ l.length) :
    ∃ r, f.restrictG [(v, .many l)] = .ok r ∧ r.WF ∧
      r.dom = f.dom.map (fun p => if p.1 = v then (v, l) else p) ∧
      ∀ o, FullObs r.dom o → ∃ x, f.getValue o = .ok x ∧ r.getValue o = .ok x := by
  have hI := storeOf_lawful (V := V) (S := S) (α := α) .numpy
  obtain ⟨d1, d2, hdom⟩ := List.append_of_mem hv
  have hd := hf.domOk hI
  obtain ⟨st', h1, h3, h4, h5⟩ := NumpyStore.restrictG_one (s := f.store) hf hdom hl h2
  have hk := hd.keys
  rw [hdom] at hk
  simp only [Dict.keys_append, Dict.keys_cons] at hk
  have hv1 : v ∉ Dict.keys d1 := by
    have := (List.nodup_append'.1 hk).2.2
    intro h; exact this h List.mem_cons_self
  have hv2 : v ∉ Dict.keys d2 := (List.nodup_cons.1 (List.nodup_append'.1 hk).2.1).1
  have hmap : ∀ d : Dom V S, v ∉ Dict.keys d → d.map (fun p => if p.1 = v then (v, l) else p) = d := by
    intro d hd
    conv_rhs => rw [← List.map_id d]
    refine List.map_congr_left fun p hp => ?_
    have : p.1 ≠ v := by rintro rfl; exact hd (Dict.mem_keys_of_mem hp)
    simp [this]
  have hrd : d1 ++ (v, l) :: d2 = f.dom.map (fun p => if p.1 = v then (v, l) else p) := by
    rw [hdom, List.map_append, List.map_cons, hmap d1 hv1, hmap d2 hv2]; simp
  let r : Factor (storeOf .numpy : StoreImpl V S α) :=
    ⟨st', (Dict.keys st'.dom).filter fun v => v ∈ f.rightVars⟩
  have hr : r.WF := h3
  have hrdom : r.dom = d1 ++ (v, l) :: d2 := h4
  refine ⟨r, ?_, hr, by rw [hrdom, hrd], ?_⟩
  · rw [Factor.restrictG, if_neg]
    · have h1' : (storeOf .numpy : StoreImpl V S α).restrictG f.store [(v, ObsVal.many l)] = .ok st' := h1
      rw [h1']
      exact Factor.build_right (hI.wf_dom h3) _
    · intro h
      exact h v (by simp [Dict.keys]) (Dict.mem_keys_of_mem (p := (v, st)) hv)
  · intro o ho
    have hof : FullObs f.dom o := by
      intro p hp
      rw [hdom] at hp
      rw [hrdom] at ho
      simp only [List.mem_append, List.mem_cons] at hp
      rcases hp with h | rfl | h
      · exact ho p (by simp [h])
      · obtain ⟨s, hs, hg⟩ := ho (v, l) (by simp)
        exact ⟨s, hl.subset hs, hg⟩
      · exact ho p (by simp [h])
    exact ⟨_, Factor.getValue_full hI hf hof, by
      rw [Factor.getValue_full hI hr ho]; exact congrArg Except.ok (h5 _ ho.inDom)⟩

example : ∃ f : Factor (storeOf .numpy : StoreImpl Char Char ℤ), f.WF ∧
    ('Y', ['c', 'd', 'e']) ∈ f.dom ∧ ['c', 'e'].Sublist ['c', 'd', 'e'] ∧ 2 ≤ ['c', 'e'].length := by
  obtain ⟨f, _, h2, h3, _⟩ := Factor.make_ok (storeOf_lawful (V := Char) (S := Char) (α := ℤ) .numpy)
    (left := none) (right := none) (values := [1, 2, 3, 4, 5, 6]) dXY_ok (by decide) rfl
  exact ⟨f, h2, by rw [h3]; decide, by decide, by decide⟩

/-! ### C11: row-major layout -/

/-- The enumerated joint state `o` is compatible with the observation. -/
def agrees (o obs : Obs V S) : Bool :=
  o.all fun p => match Dict.get? obs p.1 with
    | some s => s == p.2
    | none => true

/-- **C11** the k-th joint state has flat index k. -/
theorem C11_index_of_state {d : Dom V S} (hd : DomOk d) {k : Nat} {st : List S}
    (h : (stateSpace d)[k]? = some st) : indexList d ((Dict.keys d).zip st) = .ok [k] := by
  have hmem : (Dict.keys d).zip st ∈ assignmentSpace d :=
    List.mem_map_of_mem (List.mem_of_getElem? h)
  obtain ⟨a, ha, hc⟩ := exists_assignment_of_space hd.keys hmem
  rw [indexList_full hd ha hc]
  have e1 := assignmentSpace_getElem? ha
  rw [← space_eq_of_covers hd.keys hmem hc] at e1
  have e2 : (assignmentSpace d)[k]? = some ((Dict.keys d).zip st) := by
    rw [assignmentSpace, List.getElem?_map, h]; rfl
  have h1 : k < (assignmentSpace d).length := by
    by_contra hcon
    rw [List.getElem?_eq_none (by omega)] at e2; cases e2
  have h2 : ravel (cards d) (coords d a) < (assignmentSpace d).length := by
    by_contra hcon
    rw [List.getElem?_eq_none (by omega)] at e1; cases e1
  rw [List.getElem?_eq_getElem h1] at e2
  rw [List.getElem?_eq_getElem h2] at e1
  rw [(List.Nodup.getElem_inj_iff (nodup_assignmentSpace hd)).1
    ((Option.some.inj e1).trans (Option.some.inj e2).symm)]

private theorem product_filter {β : Type} (ls : List (List β × (β → Bool))) :
    product (ls.map fun q => q.1.filter q.2)
      = (product (ls.map Prod.fst)).filter fun xs => (List.zipWith (fun x q => q.2 x) xs ls).all id := by
  induction ls with
  | nil => rfl
  | cons q ls ih =>
    simp only [List.map_cons, product, ih]
    generalize q.1 = l
    induction l with
    | nil => rfl
    | cons x l ihl =>
      rw [List.flatMap_cons, List.filter_append, ← ihl, List.filter_map]
      by_cases hx : q.2 x = true
      · rw [List.filter_cons_of_pos hx, List.flatMap_cons]
        congr 2
        refine List.filter_congr fun ys _ => ?_
        simp [hx]
      · rw [List.filter_cons_of_neg hx]
        have : (product (ls.map Prod.fst)).filter
            ((fun xs => (List.zipWith (fun x q => q.2 x) xs (q :: ls)).all id) ∘ (x :: ·)) = [] := by
          rw [List.filter_eq_nil_iff]
          intro ys _
          simp [hx]
        rw [this]; rfl

/-- **C11** a partial observation selects exactly the flat indices of the joint states that agree
with it, in increasing order. -/
theorem C11_partial_observation {d : Dom V S} (hd : DomOk d) {obs : Obs V S} (ho : ObsOk d obs) :
    indexList d obs = .ok ((List.range (cards d).prod).filter fun k =>
      match (assignmentSpace d)[k]? with
      | some o => agrees o obs
      | none => false) := by
  rw [indexList_eq hd.keys ho]
  congr 1
  rw [← map_ravel_idxSpace, List.filter_map]
  congr 1
  let sel : V × List S → List Nat × (Nat → Bool) := fun p =>
    (List.range p.2.length, fun i => match Dict.get? obs p.1 with
      | none => true
      | some s => i == p.2.idxOf s)
  have e1 : d.map (selRange obs) = (d.map sel).map fun q => q.1.filter q.2 := by
    rw [List.map_map]
    refine List.map_congr_left fun p hp => ?_
    simp only [Function.comp, sel, selRange]
    rcases hg : Dict.get? obs p.1 with _ | s
    · simp
    · have hs := ho p hp s hg
      have hlt := List.idxOf_lt_length_of_mem hs
      simp only
      have : ∀ (n i : Nat), i < n → (List.range n).filter (· == i) = [i] := by
        intro n i hi
        rw [List.filter_beq, List.count_eq_one_of_mem List.nodup_range (by simpa using hi)]
        rfl
      exact (this _ _ hlt).symm
  have e2 : (d.map sel).map Prod.fst = (cards d).map List.range := by
    simp [sel, cards, Function.comp_def]
  rw [e1, product_filter, e2]
  refine List.filter_congr fun idx hidx => ?_
  have hval := mem_idxSpace.1 hidx
  -- the coordinates come from an assignment
  obtain ⟨a, ha, rfl⟩ : ∃ a : V → S, InDom d a ∧ idx = coords d a := by
    have := map_idxSpace_cards hd (fun _ => Classical.arbitrary S) (fun i => i)
    rw [List.map_id'] at this
    have hidx' : idx ∈ idxSpace (cards d) := hidx
    rw [this, List.mem_map] at hidx'
    obtain ⟨b, hb, rfl⟩ := hidx'
    exact ⟨b, variants_inDom hd.keys hb, rfl⟩
  simp only [Function.comp, assignmentSpace_getElem? ha, agrees]
  rw [coords, List.zipWith_map, List.zipWith_self, List.all_map, List.all_map]
  rw [Bool.eq_iff_iff, List.all_eq_true, List.all_eq_true]
  refine forall₂_congr fun p hp => ?_
  simp only [Function.comp, sel, id]
  rcases hg : Dict.get? obs p.1 with _ | s
  · simp
  · simp only [beq_iff_eq]
    rw [eq_comm, List.idxOf_inj (ho p hp s hg)]

example : DomOk dXY ∧ ObsOk dXY [('Y', 'd')] := by
  refine ⟨dXY_ok, ?_⟩
  simp [ObsOk, dXY, Dict.get?]
example : indexList dXY [('Y', 'd')] = .ok [1, 4] := by decide +kernel
example : (stateSpace dXY)[4]? = some ['b', 'd'] := by decide +kernel

/-! ### C13: values_array -/

/-- Domain of `f` listed in the given variable order. -/
def reordered (d : Dom V S) (order : List V) : Dom V S :=
  order.filterMap fun v => (Dict.get? d v).map fun st => (v, st)

/-- **C13** the array returned by `values_array(order)`, read at the coordinates of a joint state in
the requested order, is the value of the factor at that state. -/
theorem C13_values_array (vt : VType) {f : Factor (storeOf vt : StoreImpl V S α)} (hf : f.WF)
    {order : List V} (hp : order.Perm f.vars) :
    ∃ arr, f.valuesArray order = .ok arr ∧ arr.shape = cards (reordered f.dom order) ∧
      Dict.keys (reordered f.dom order) = order ∧
      ∀ obs, FullObs f.dom obs →
        f.getValue obs = .ok (arr.get ((reordered f.dom order).map fun p =>
          p.2.idxOf ((Dict.get? obs p.1).getD (p.2.headD (Classical.arbitrary S))))) := by
  have hI := storeOf_lawful (V := V) (S := S) (α := α) vt
  have hd := hf.domOk hI
  have horder : (if order = [] then f.vars else order) = order := by
    by_cases h : order = []
    · subst h; rw [if_pos rfl]; exact (List.nil_perm.1 hp)
    · rw [if_neg h]
  have hget : ∀ v ∈ order, ∃ st, Dict.get? f.dom v = some st := by
    intro v hv
    obtain ⟨st, hst⟩ := Dict.mem_keys.1 (hp.mem_iff.1 hv)
    exact ⟨st, Dict.get?_of_mem hd.keys hst⟩
  have hmapM : (order.mapM fun v => do
      let d ← Dict.get f.dom v
      return (v, d)) = (.ok (reordered f.dom order) : Py (Dom V S)) := by
    have : reordered f.dom order = order.map fun v => (v, (Dict.get? f.dom v).getD []) := by
      rw [reordered, ← List.filterMap_eq_map]
      refine List.filterMap_congr fun v hv => ?_
      obtain ⟨st, hst⟩ := hget v hv
      simp [hst]
    rw [this]
    refine mapM_ok fun v hv => ?_
    obtain ⟨st, hst⟩ := hget v hv
    simp [Dict.get, hst]
  have hkeys : Dict.keys (reordered f.dom order) = order := by
    rw [reordered, Dict.keys, List.map_filterMap]
    conv_rhs => rw [← List.filterMap_some (l := order)]
    refine List.filterMap_congr fun v hv => ?_
    obtain ⟨st, hst⟩ := hget v hv
    simp [hst]
  have hmem : ∀ p, p ∈ reordered f.dom order ↔ p ∈ f.dom := by
    intro p
    simp only [reordered, List.mem_filterMap, Option.map_eq_some_iff]
    constructor
    · rintro ⟨v, _, st, hst, rfl⟩; exact Dict.mem_of_get? hst
    · intro h
      exact ⟨p.1, hp.mem_iff.2 (Dict.mem_keys_of_mem h), p.2, Dict.get?_of_mem hd.keys h, rfl⟩
  have hdr : DomOk (reordered f.dom order) :=
    ⟨by rw [hkeys]; exact hp.nodup_iff.2 hd.keys, fun p h => hd.states p ((hmem p).1 h),
      fun p h => hd.nonempty p ((hmem p).1 h)⟩
  have hvals : (assignmentSpace (reordered f.dom order)).mapM f.getValue
      = .ok ((assignmentSpace (reordered f.dom order)).map fun o => f.sem (asg o)) := by
    refine mapM_ok fun o ho => ?_
    exact Factor.getValue_full hI hf ((mem_assignmentSpace_fullObs hdr.keys ho).mono
      fun p h => (hmem p).2 h)
  refine ⟨⟨cards (reordered f.dom order),
    (assignmentSpace (reordered f.dom order)).map fun o => f.sem (asg o)⟩, ?_, rfl, hkeys, ?_⟩
  · rw [Factor.valuesArray, horder, hmapM, py_ok_bind, hvals]; rfl
  · intro obs ho
    have ho' : FullObs (reordered f.dom order) obs := ho.mono fun p h => (hmem p).1 h
    have hco : ((reordered f.dom order).map fun p =>
          p.2.idxOf ((Dict.get? obs p.1).getD (p.2.headD (Classical.arbitrary S))))
        = coords (reordered f.dom order) (asg obs) := by
      refine List.map_congr_left fun p hp' => ?_
      have := ho'.covers p.1 (Dict.mem_keys_of_mem hp')
      rw [this]; rfl
    rw [Factor.getValue_full hI hf ho, hco, NdArray.get, List.getD_eq_getElem?_getD, List.getElem?_map,
      assignmentSpace_getElem? ho'.inDom]
    simp only [Option.map_some, Option.getD_some]
    congr 1
    refine hf.sem_congr hI fun v hv => ?_
    obtain ⟨st, hst⟩ := Dict.mem_keys.1 hv
    have hc := covers_map (reordered f.dom order) (asg obs) (e := reordered f.dom order) (fun v h => h) v
      (Dict.mem_keys_of_mem (p := (v, st)) ((hmem _).2 hst))
    exact (over_of_get? hc).symm

example (vt : VType) : ∃ f : Factor (storeOf vt : StoreImpl Char Char ℤ), f.WF ∧ ['Y', 'X'].Perm f.vars := by
  obtain ⟨f, _, h2, h3, _⟩ := Factor.make_ok (storeOf_lawful (V := Char) (S := Char) (α := ℤ) vt)
    (left := none) (right := none) (values := [1, 2, 3, 4, 5, 6]) dXY_ok (by decide) rfl
  exact ⟨f, h2, by rw [Factor.vars, h3]; exact List.Perm.swap _ _ _⟩

example : ∀ vt ∈ [VType.numpy, .numpy1d, .list, .treedict],
    (do let f ← Factor.make (storeOf vt : StoreImpl Char Char ℤ) dXY [1, 2, 3, 4, 5, 6] none none
        f.valuesArray ['Y', 'X']) = (.ok ⟨[3, 2], [1, 4, 2, 5, 3, 6]⟩ : Py _) := by
  decide +kernel

/-! ### C14: renaming -/

/-- **C14** renaming with a mapping injective on the variables is a pure relabelling. -/
theorem C14_rename (vt : VType) {f : Factor (storeOf vt : StoreImpl V S α)} (hf : f.WF)
    (hright : ∀ v ∈ f.rightVars, v ∈ f.vars) (m : List (V × V))
    (hinj : ∀ v ∈ f.vars, ∀ w ∈ f.vars, Factor.renameOne m v = Factor.renameOne m w → v = w) :
    ∃ r, f.renameVars m = .ok r ∧ r.WF ∧
      r.dom = f.dom.map (fun p => (Factor.renameOne m p.1, p.2)) ∧
      r.vars = f.vars.map (Factor.renameOne m) ∧
      r.leftVars = f.leftVars.map (Factor.renameOne m) ∧
      r.rightVars = f.rightVars.map (Factor.renameOne m) ∧
      ∀ obs obs', FullObs f.dom obs →
        (∀ v ∈ f.vars, Dict.get? obs' (Factor.renameOne m v) = Dict.get? obs v) →
        ∃ x, f.getValue obs = .ok x ∧ r.getValue obs' = .ok x := by
  have hI := storeOf_lawful (V := V) (S := S) (α := α) vt
  have hd := hf.domOk hI
  let ρ := Factor.renameOne m
  let d' : Dom V S := f.dom.map fun p => (ρ p.1, p.2)
  have hk' : Dict.keys d' = f.vars.map ρ := by simp [d', Dict.keys, Factor.vars, Function.comp_def]
  have hd' : DomOk d' := by
    refine ⟨?_, ?_, ?_⟩
    · rw [hk']; exact List.Nodup.map_on hinj hd.keys
    · intro p hp
      obtain ⟨q, hq, rfl⟩ := List.mem_map.1 hp
      exact hd.states q hq
    · intro p hp
      obtain ⟨q, hq, rfl⟩ := List.mem_map.1 hp
      exact hd.nonempty q hq
  have hcards : cards d' = cards f.dom := by simp [d', cards, Function.comp_def]
  have hset : Factor.setVariables (Dict.keys d') (some (f.leftVars.map ρ)) (some (f.rightVars.map ρ))
      = .ok (f.rightVars.map ρ) := by
    rw [Factor.setVariables, if_pos]
    refine ⟨?_, ?_, ?_⟩
    · intro v hv
      rw [hk', List.mem_map] at hv
      obtain ⟨w, hw, rfl⟩ := hv
      by_cases hr : w ∈ f.rightVars
      · exact Or.inr (List.mem_map_of_mem hr)
      · exact Or.inl (List.mem_map_of_mem (List.mem_filter.2 ⟨hw, by simpa using hr⟩))
    · intro v hv
      rw [hk']
      rcases List.mem_append.1 hv with h | h
      · obtain ⟨w, hw, rfl⟩ := List.mem_map.1 h
        exact List.mem_map_of_mem (List.mem_filter.1 hw).1
      · obtain ⟨w, hw, rfl⟩ := List.mem_map.1 h
        exact List.mem_map_of_mem (hright w hw)
    · intro v hv hl
      obtain ⟨w, hw, rfl⟩ := List.mem_map.1 hv
      obtain ⟨u, hu, e⟩ := List.mem_map.1 hl
      have := hinj u (List.mem_filter.1 hu).1 w (hright w hw) e
      subst this
      simpa [hw] using (List.mem_filter.1 hu).2
  obtain ⟨r, h1, h2, h3, h4, h5⟩ := Factor.make_ok hI (d := d')
    (values := (assignmentSpace f.dom).map fun o => f.sem (asg o)) hd'
    (by rw [hcards]; simp [assignmentSpace, stateSpace, length_product, cards, Function.comp_def]) hset
  have hvars : r.vars = f.vars.map ρ := by rw [Factor.vars, h3, hk']
  refine ⟨r, ?_, h2, h3, hvars, ?_, h4, ?_⟩
  · rw [Factor.renameVars, Factor.valuesList_ok hI hf, py_ok_bind, Factor.buildFlat]
    simpa using h1
  · rw [Factor.leftVars, hvars, h4, List.filter_map]
    congr 1
    refine List.filter_congr fun v hv => ?_
    simp only [Function.comp, List.mem_map, decide_eq_decide]
    refine not_congr ⟨?_, fun h => ⟨v, h, rfl⟩⟩
    rintro ⟨w, hw, e⟩
    rw [← hinj w (hright w hw) v hv e]; exact hw
  · intro obs obs' ho hobs
    refine ⟨_, Factor.getValue_full hI hf ho, ?_⟩
    have ho' : FullObs r.dom obs' := by
      rw [h3]
      intro p hp
      obtain ⟨q, hq, rfl⟩ := List.mem_map.1 hp
      obtain ⟨s, hs, hg⟩ := ho q hq
      exact ⟨s, hs, by rw [← hg]; exact hobs q.1 (Dict.mem_keys_of_mem hq)⟩
    rw [Factor.getValue_full hI h2 ho', h5 _ (by rw [← h3]; exact ho'.inDom), hcards]
    have hco : coords d' (asg obs') = coords f.dom (asg obs) := by
      simp only [coords, d', List.map_map]
      refine List.map_congr_left fun p hp => ?_
      have e1 := ho.covers p.1 (Dict.mem_keys_of_mem hp)
      have e2 := hobs p.1 (Dict.mem_keys_of_mem hp)
      simp only [Function.comp]
      rw [e1] at e2
      rw [show asg obs' (ρ p.1) = asg obs p.1 from by rw [asg, over_of_get? e2]]
    rw [hco, List.getD_eq_getElem?_getD, List.getElem?_map, assignmentSpace_getElem? ho.inDom]
    simp only [Option.map_some, Option.getD_some]
    congr 1
    refine hf.sem_congr hI fun v hv => ?_
    have hc := covers_map f.dom (asg obs) (e := f.dom) (fun v h => h) v hv
    rw [asg, over_of_get? hc]

example (vt : VType) : ∃ f : Factor (storeOf vt : StoreImpl Char Char ℤ), f.WF ∧
    (∀ v ∈ f.rightVars, v ∈ f.vars) ∧ f.vars = ['X', 'Y'] ∧
    ∀ v ∈ f.vars, ∀ w ∈ f.vars, Factor.renameOne [('X', 'Y'), ('Y', 'X')] v
      = Factor.renameOne [('X', 'Y'), ('Y', 'X')] w → v = w := by
  obtain ⟨f, _, h2, h3, h4, _⟩ := Factor.make_ok (storeOf_lawful (V := Char) (S := Char) (α := ℤ) vt)
    (left := none) (right := some ['Y']) (values := [1, 2, 3, 4, 5, 6]) dXY_ok (by decide) rfl
  have hv : f.vars = ['X', 'Y'] := by rw [Factor.vars, h3]; rfl
  refine ⟨f, h2, ?_, hv, ?_⟩
  · rw [h4, hv]; decide
  · rw [hv]; decide

/-! ### C18: constant -/

/-- **C18** `f.constant(s)` for a factor with exactly one left variable `v`: a table over `v` alone, one
at `s` and zero elsewhere. -/
theorem C18_constant [One α] (vt : VType) {f : Factor (storeOf vt : StoreImpl V S α)} (hf : f.WF)
    {v : V} {st : List S} (hl : f.leftVars = [v]) (hv : (v, st) ∈ f.dom) {s : S} (hs : s ∈ st) :
    ∃ r, f.constant s = .ok r ∧ r.WF ∧ r.dom = [(v, st)] ∧ r.leftVars = [v] ∧ r.rightVars = [] ∧
      ∀ t ∈ st, r.getValue [(v, t)] = .ok (if t = s then 1 else 0) := by
  have hI := storeOf_lawful (V := V) (S := S) (α := α) vt
  have hd := hf.domOk hI
  have hld : f.leftDomain = [(v, st)] := by
    rw [Factor.leftDomain, hl]
    have hnd : (f.dom.filter fun p => p.1 ∈ [v]) = [(v, st)] := by
      have h1 : (f.dom.filter fun p => p.1 ∈ [v]).Nodup := (hd.keys.of_map _).filter _
      refine List.Perm.eq_singleton ((List.perm_ext_iff_of_nodup h1 (by simp)).2 fun p => ?_)
      simp only [List.mem_filter, List.mem_singleton, decide_eq_true_eq]
      constructor
      · rintro ⟨hp, e⟩
        have e1 : Dict.get? f.dom p.1 = some p.2 := Dict.get?_of_mem hd.keys hp
        have e2 : Dict.get? f.dom v = some st := Dict.get?_of_mem hd.keys hv
        rw [e, e2] at e1
        exact Prod.ext e (Option.some.inj e1).symm
      · rintro rfl; exact ⟨hv, rfl⟩
    exact hnd
  have hdv : DomOk [(v, st)] := ⟨by simp, by simpa using hd.states _ hv, by simpa using hd.nonempty _ hv⟩
  obtain ⟨r, h1, h2, h3, h4, h5⟩ := Factor.make_ok hI (d := [(v, st)]) (left := some [v]) (right := none)
    (values := (List.replicate st.length (0 : α)).set (st.idxOf s) 1) (r := []) hdv (by simp [cards])
    (by simp [Factor.setVariables])
  refine ⟨r, ?_, h2, h3, ?_, h4, ?_⟩
  · simp only [Factor.constant, hld, hl]
    simp [Dict.get, Dict.get?, hs, Factor.buildFlat, hl, h1]
  · simp [Factor.leftVars, Factor.vars, h3, h4]
  · intro t ht
    have ho : FullObs r.dom [(v, t)] := by
      rw [h3]; intro p hp
      rw [List.mem_singleton] at hp; subst hp
      exact ⟨t, ht, by simp [Dict.get?]⟩
    have hat : (asg [(v, t)] : V → S) v = t := by
      rw [asg, over_of_get? (s := t)]; simp [Dict.get?]
    rw [Factor.getValue_full hI h2 ho, h5 _ (by rw [← h3]; exact ho.inDom)]
    simp only [coords, cards, List.map_cons, List.map_nil, hat, ravel_cons, ravel_nil, List.prod_nil,
      one_mul, add_zero]
    have hlt := List.idxOf_lt_length_of_mem ht
    by_cases e : t = s
    · subst e
      rw [List.getD_eq_getElem?_getD, List.getElem?_set_self (by simpa using hlt)]; simp
    · rw [List.getD_eq_getElem?_getD, List.getElem?_set_ne, List.getElem?_replicate, if_pos hlt]
      · simp [e]
      · intro h; exact e ((List.idxOf_inj hs).1 h).symm

/-- **C18** a state outside the domain is rejected. -/
theorem C18_constant_bad_state [One α] (vt : VType) {f : Factor (storeOf vt : StoreImpl V S α)} (hf : f.WF)
    {v : V} {st : List S} (hl : f.leftVars = [v]) (hv : (v, st) ∈ f.dom) {s : S} (hs : s ∉ st) :
    f.constant s = .error .valueError := by
  have hI := storeOf_lawful (V := V) (S := S) (α := α) vt
  have hd := hf.domOk hI
  have hg : Dict.get? f.leftDomain v = some st := by
    rw [Factor.leftDomain, Dict.get?_filter_key f.dom (fun w => w ∈ f.leftVars), hl, if_pos (by simp)]
    exact Dict.get?_of_mem hd.keys hv
  simp only [Factor.constant, hl, Dict.get, hg, py_ok_bind, hs, not_false_eq_true, if_true]
  by_cases h : f.leftDomain.length ≠ 1 <;> simp [h, throw, throwThe, MonadExceptOf.throw, Except.bind, bind, pure, Except.pure]

example (vt : VType) : ∃ f : Factor (storeOf vt : StoreImpl Char Char ℤ), f.WF ∧ f.leftVars = ['X'] ∧
    ('X', ['a', 'b']) ∈ f.dom := by
  obtain ⟨f, _, h2, h3, h4, _⟩ := Factor.make_ok (storeOf_lawful (V := Char) (S := Char) (α := ℤ) vt)
    (left := none) (right := some ['Y']) (values := [1, 2, 3, 4, 5, 6]) dXY_ok (by decide) rfl
  exact ⟨f, h2, by rw [Factor.leftVars, Factor.vars, h3, h4]; decide, by rw [h3]; decide⟩

end Verif.Props
