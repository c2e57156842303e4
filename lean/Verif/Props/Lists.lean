import Verif.Props.Factors3
import Verif.Store.NumpyLists

/-!
# C08 exactly: what restriction to lists of states does in the default store
-/

set_option linter.unusedSectionVars false
set_option linter.unusedSimpArgs false

namespace Verif.Props
open Verif

variable {V S α : Type} [DecidableEq V] [DecidableEq S] [Nonempty S] [Inhabited α] [AddCommMonoid α]

/-- The observation fixes `w` at `s`, given as it is or in a list of its own. -/
def Fixes (obs : List (V × ObsVal S)) (w : V) (s : S) : Prop :=
  Dict.get? obs w = some (.one s) ∨ Dict.get? obs w = some (.many [s])

/-- The observation restricts `w` to the two or more states of `l`. -/
def Restricts (obs : List (V × ObsVal S)) (w : V) (l : List S) : Prop := Dict.get? obs w = some (.many l) ∧ 2 ≤ l.length

/-- `w` is not observed. -/
def Unseen (obs : List (V × ObsVal S)) (w : V) : Prop := Dict.get? obs w = none

instance (obs : List (V × ObsVal S)) (w : V) : Decidable (Unseen obs w) := decidable_of_iff ((Dict.get? obs w).isNone) (by rw [Unseen]; simp)

/-- A variable that is not observed stands between two that are. -/
def Apart (obs : List (V × ObsVal S)) (vars : List V) : Prop :=
  ∃ p q w, [p, q, w].Sublist vars ∧ ¬ Unseen obs p ∧ Unseen obs q ∧ ¬ Unseen obs w

/-- `v` is the one variable restricted to a list, and the list is `l`. -/
def OnlyList (obs : List (V × ObsVal S)) (vars : List V) (v : V) (l : List S) : Prop :=
  Restricts obs v l ∧ ∀ w ∈ vars, w ≠ v → ∀ l', ¬ Restricts obs w l'

/-- The observation `o` of the restricted factor reads what `o'` reads in the factor itself, if the `k`-th of the remaining states of `v` stands for the `k`-th of the list. -/
structure ByPlace (obs : List (V × ObsVal S)) (vars : List V) (v : V) (st l : List S) (o o' : Obs V S) : Prop where
  unseen : ∀ w ∈ vars, Unseen obs w → Dict.get? o' w = Dict.get? o w
  fixed : ∀ w s, Fixes obs w s → Dict.get? o' w = some s
  list : ∃ (k : Nat) (x y : S), (st.filter fun s => s ∈ l)[k]? = some x ∧ l[k]? = some y ∧ Dict.get? o v = some x ∧ Dict.get? o' v = some y

section
variable {obs : List (V × ObsVal S)}

theorem seen_unseen {w : V} : NumpyStore.seen obs w = none ↔ Unseen obs w := by
  rw [NumpyStore.seen, Unseen]; simp

theorem seen_fixes {w : V} {s : S} (h : Fixes obs w s) : NumpyStore.seen obs w = some (.one s) := by
  rw [NumpyStore.seen]
  rcases h with h | h <;> rw [h] <;> rfl

theorem seen_restricts {w : V} {l : List S} (h : Restricts obs w l) : NumpyStore.seen obs w = some (.many l) := by
  rw [NumpyStore.seen, h.1]
  match l, h.2 with
  | _ :: _ :: _, _ => rfl

theorem asg_get?' {o : Obs V S} {w : V} {s : S} (h : Dict.get? o w = some s) : asg o w = s := over_of_get? h

/-- What can be asked of a variable -/
theorem asked {d : Dom V S} (hok : ListObsOk d obs) {p : V × List S} (hp : p ∈ d) :
    Unseen obs p.1 ∨ (∃ s ∈ p.2, Fixes obs p.1 s) ∨ ∃ l, Restricts obs p.1 l ∧ l.Nodup ∧ ∀ s ∈ l, s ∈ p.2 := by
  cases h : Dict.get? obs p.1 with
  | none => exact .inl h
  | some o =>
    have := hok p hp o h
    cases o with
    | one s => exact .inr (.inl ⟨s, this, .inl h⟩)
    | many l =>
      obtain ⟨h1, h2, h3⟩ := this
      match l, h1 with
      | [s], _ => exact .inr (.inl ⟨s, h3 s (by simp), .inr h⟩)
      | s :: t :: l, _ => exact .inr (.inr ⟨_, ⟨h, by simp⟩, h2, h3⟩)

theorem seenOk_of {d : Dom V S} (hok : ListObsOk d obs) {p : V × List S} (hp : p ∈ d) : NumpyStore.SeenOk obs p := by
  rw [NumpyStore.SeenOk]
  rcases asked hok hp with h | ⟨s, hs, h⟩ | ⟨l, h, _, hl⟩
  · rw [seen_unseen.2 h]; trivial
  · rw [seen_fixes h]; exact hs
  · rw [seen_restricts h]; exact hl

theorem oneList_of {d : Dom V S} (hok : ListObsOk d obs) (hk : (Dict.keys d).Nodup) {A C : Dom V S} {v : V} {st l : List S}
    (hd : d = A ++ (v, st) :: C) (hl : OnlyList obs (Dict.keys d) v l) : NumpyStore.OneList obs A v st l C := by
  have hv : (v, st) ∈ d := by rw [hd]; simp
  obtain ⟨h1, h2⟩ := hl
  have h3 := hok (v, st) hv _ h1.1
  refine ⟨seen_restricts h1, h3.2.2, h3.2.1, h1.2, fun p hp => ?_⟩
  have hpd : p ∈ d := by rw [hd]; simp at hp ⊢; tauto
  have hne : p.1 ≠ v := by
    intro hpv
    rw [hd, Dict.keys_append, Dict.keys_cons] at hk
    have := (List.nodup_middle.1 hk)
    rw [List.nodup_cons, ← Dict.keys_append] at this
    have hm := Dict.mem_keys_of_mem hp
    rw [hpv] at hm
    exact this.1 hm
  rcases asked hok hpd with h | ⟨s, hs, h⟩ | ⟨l', h, _, _⟩
  · exact .inl (seen_unseen.2 h)
  · exact .inr ⟨s, hs, seen_fixes h⟩
  · exact absurd h (h2 _ (Dict.mem_keys_of_mem hpd) hne l')

theorem free_eq (d : Dom V S) : NumpyStore.free obs d = d.filter fun p => Unseen obs p.1 := by
  rw [NumpyStore.free]
  refine List.filter_congr fun p _ => ?_
  rw [Bool.eq_iff_iff, Option.isNone_iff_eq_none, seen_unseen, decide_eq_true_iff]

theorem contiguous_iff (d : Dom V S) : NdArray.contiguous (d.map (NumpyStore.ixG obs)) = false ↔ Apart obs (Dict.keys d) := by
  rw [NdArray.contiguous_false]
  have hi : ∀ p : V × List S, (NumpyStore.ixG obs p).isAll = true ↔ Unseen obs p.1 := fun p => by
    rw [NumpyStore.isAll_ix, Option.isNone_iff_eq_none, seen_unseen]
  have hi' : ∀ p : V × List S, (NumpyStore.ixG obs p).isAll = false ↔ ¬ Unseen obs p.1 := fun p => by
    rw [← hi, Bool.not_eq_true]
  constructor
  · rintro ⟨x, y, z, h, hx, hy, hz⟩
    obtain ⟨l, hl, e⟩ := List.sublist_map_iff.1 h
    match l, e, hl with
    | [p, q, w], e, hl =>
      simp only [List.map_cons, List.map_nil, List.cons.injEq, and_true] at e
      obtain ⟨rfl, rfl, rfl⟩ := e
      exact ⟨p.1, q.1, w.1, hl.map Prod.fst, (hi' p).1 hx, (hi q).1 hy, (hi' w).1 hz⟩
  · rintro ⟨x, y, z, h, hx, hy, hz⟩
    obtain ⟨l, hl, e⟩ := List.sublist_map_iff.1 (show [x, y, z].Sublist (d.map Prod.fst) from h)
    match l, e, hl with
    | [p, q, w], e, hl =>
      simp only [List.map_cons, List.map_nil, List.cons.injEq, and_true] at e
      obtain ⟨rfl, rfl, rfl⟩ := e
      exact ⟨_, _, _, hl.map (NumpyStore.ixG obs), (hi' p).2 hx, (hi q).2 hy, (hi' w).2 hz⟩

theorem free_nil {d : Dom V S} (h : ∀ w ∈ Dict.keys d, ¬ Unseen obs w) : NumpyStore.free obs d = [] := by
  rw [free_eq, List.filter_eq_nil_iff]
  intro p hp
  simpa using h p.1 (Dict.mem_keys_of_mem hp)

end

/-- **C08** one variable restricted to a list, any others fixed, and the observed variables next to each other or nothing unobserved before the
restricted one: the call succeeds, the domain is right, and the values are taken **by place in the list**. -/
theorem C08_one_list {f : Factor (storeOf .numpy : StoreImpl V S α)} (hf : f.WF) {obs : List (V × ObsVal S)} (hok : ListObsOk f.dom obs)
    {A C : Dom V S} {v : V} {st l : List S} (hd : f.dom = A ++ (v, st) :: C) (hl : OnlyList obs f.vars v l)
    (hp : ¬ Apart obs f.vars ∨ ∀ w ∈ Dict.keys A, ¬ Unseen obs w) :
    ∃ r, f.restrictG obs = .ok r ∧ r.WF ∧
      r.dom = (A.filter fun p => Unseen obs p.1) ++ (v, st.filter fun s => s ∈ l) :: (C.filter fun p => Unseen obs p.1) ∧
      ∀ o o', FullObs r.dom o → ByPlace obs f.vars v st l o o' → ∃ x, f.getValue o' = .ok x ∧ r.getValue o = .ok x := by
  have hI := storeOf_lawful (V := V) (S := S) (α := α) .numpy
  have hD := hf.domOk hI
  have h1 := oneList_of hok hD.keys hd hl
  have hpos : NdArray.contiguous (f.dom.map (NumpyStore.ixG obs)) = true ∨ NumpyStore.free obs A = [] := by
    refine hp.imp (fun h => ?_) free_nil
    rw [← Bool.not_eq_false, contiguous_iff]; exact h
  obtain ⟨st', r1, r2, r3, r4⟩ := NumpyStore.restrictG_list (s := f.store) hf hd h1 hpos
  let r : Factor (storeOf .numpy : StoreImpl V S α) := ⟨st', (Dict.keys st'.dom).filter fun v => v ∈ f.rightVars⟩
  have hr : r.WF := r2
  have hvf : v ∈ f.vars := by
    show v ∈ Dict.keys f.dom
    rw [hd]; simp [Dict.keys]
  refine ⟨r, ?_, hr, ?_, ?_⟩
  · rw [Factor.restrictG, if_neg]
    · have h1' : (storeOf .numpy : StoreImpl V S α).restrictG f.store obs = .ok st' := r1
      rw [h1']
      exact Factor.build_right (hI.wf_dom r2) _
    · intro h
      refine h v ?_ hvf
      exact Dict.mem_keys_of_mem (Dict.mem_of_get? hl.1.1)
  · rw [← free_eq, ← free_eq]; exact r3
  · intro o o' ho hb
    obtain ⟨k, x, y, k1, k2, k3, k4⟩ := hb.list
    have hstn : st.Nodup := hD.states (v, st) (by rw [hd]; simp)
    have hrd : r.dom = NumpyStore.free obs A ++ (v, st.filter fun s => s ∈ l) :: NumpyStore.free obs C := r3
    have hav : asg o v = x := asg_get?' k3
    have hidx : (st.filter fun s => s ∈ l).idxOf (asg o v) = k := by
      rw [hav]
      obtain ⟨hk, e⟩ := List.getElem?_eq_some_iff.1 k1
      rw [← e]
      exact List.Nodup.idxOf_getElem (hstn.filter _) k hk
    have hfull : FullObs f.dom o' := by
      intro p hp
      by_cases hpv : p.1 = v
      · have : p = (v, st) := by
          have e1 : Dict.get? f.dom p.1 = some p.2 := Dict.get?_of_mem hD.keys hp
          have e2 : Dict.get? f.dom v = some st := Dict.get?_of_mem hD.keys (by rw [hd]; simp)
          rw [hpv] at e1
          rw [e1] at e2
          exact Prod.ext hpv (Option.some.inj e2)
        subst this
        exact ⟨y, h1.sub y (List.mem_of_getElem? k2), k4⟩
      · rcases asked hok hp with h | ⟨s, hs, h⟩ | ⟨l', h, _, _⟩
        · obtain ⟨s, hs, hg⟩ := ho p (by
            rw [hrd]
            have : p ∈ NumpyStore.free obs A ∨ p ∈ NumpyStore.free obs C := by
              rw [hd] at hp
              have h' : (NumpyStore.seen obs p.1).isNone = true := by rw [seen_unseen.2 h]; rfl
              rcases List.mem_append.1 hp with hp | hp
              · exact .inl (List.mem_filter.2 ⟨hp, h'⟩)
              · rcases List.mem_cons.1 hp with rfl | hp
                · exact absurd rfl hpv
                · exact .inr (List.mem_filter.2 ⟨hp, h'⟩)
            rcases this with h | h <;> simp [h])
          exact ⟨s, hs, by rw [hb.unseen _ (Dict.mem_keys_of_mem hp) h]; exact hg⟩
        · exact ⟨s, hs, hb.fixed _ _ h⟩
        · exact absurd h (hl.2 _ (Dict.mem_keys_of_mem hp) hpv l')
    refine ⟨_, Factor.getValue_full hI hf hfull, ?_⟩
    rw [Factor.getValue_full hI hr ho]
    refine congrArg Except.ok ((r4 _ ho.inDom).trans ?_)
    rw [hidx]
    show f.store.sem _ = f.store.sem _
    refine NumpyStore.sem_congr fun w hw => ?_
    obtain ⟨p, hp, rfl⟩ := List.mem_map.1 hw
    rw [NumpyStore.readAt]
    by_cases hpv : p.1 = v
    · rw [hpv, h1.list]
      simp only [k2, Option.getD_some]
      exact (asg_get?' k4).symm
    · rcases asked hok hp with h | ⟨s, hs, h⟩ | ⟨l', h, _, _⟩
      · rw [seen_unseen.2 h]
        simp only [asg, over, hb.unseen _ hw h]
      · rw [seen_fixes h]
        exact (asg_get?' (hb.fixed _ _ h)).symm
      · exact absurd h (hl.2 _ (Dict.mem_keys_of_mem hp) hpv l')

theorem filter_of_sublist {st l : List S} (hn : st.Nodup) (h : l.Sublist st) : (st.filter fun s => s ∈ l) = l := by
  have h1 : (l.filter fun s => s ∈ l).Sublist (st.filter fun s => s ∈ l) := h.filter _
  rw [List.filter_eq_self.2 (by simp)] at h1
  refine (h1.eq_of_length_le ?_).symm
  refine ((List.subperm_of_subset (hn.filter _) fun x hx => ?_).length_le)
  simpa using (List.mem_filter.1 hx).2

/-- **C08** a list in the order of the domain: labels and values stay together. -/
theorem C08_in_order {f : Factor (storeOf .numpy : StoreImpl V S α)} (hf : f.WF) {obs : List (V × ObsVal S)} (hok : ListObsOk f.dom obs)
    {A C : Dom V S} {v : V} {st l : List S} (hd : f.dom = A ++ (v, st) :: C) (hl : OnlyList obs f.vars v l) (hs : l.Sublist st)
    (hp : ¬ Apart obs f.vars ∨ ∀ w ∈ Dict.keys A, ¬ Unseen obs w) :
    ∃ r, f.restrictG obs = .ok r ∧ r.WF ∧
      r.dom = (A.filter fun p => Unseen obs p.1) ++ (v, l) :: (C.filter fun p => Unseen obs p.1) ∧
      ∀ o o', FullObs r.dom o → (∀ w ∈ r.vars, Dict.get? o' w = Dict.get? o w) → (∀ w s, Fixes obs w s → Dict.get? o' w = some s) →
        ∃ x, f.getValue o' = .ok x ∧ r.getValue o = .ok x := by
  have hI := storeOf_lawful (V := V) (S := S) (α := α) .numpy
  have hD := hf.domOk hI
  have hstn : st.Nodup := hD.states (v, st) (by rw [hd]; simp)
  have hfl := filter_of_sublist hstn hs
  obtain ⟨r, r1, r2, r3, r4⟩ := C08_one_list hf hok hd hl hp
  rw [hfl] at r3
  refine ⟨r, r1, r2, r3, fun o o' ho h1 h2 => ?_⟩
  have hvr : (v, l) ∈ r.dom := by rw [r3]; simp
  obtain ⟨x, hx, hg⟩ := ho _ hvr
  obtain ⟨k, hk, rfl⟩ := List.mem_iff_getElem.1 (show x ∈ l from hx)
  refine r4 o o' ho ⟨fun w hw hu => h1 w ?_, h2, k, _, _, by rw [hfl]; exact List.getElem?_eq_getElem hk, List.getElem?_eq_getElem hk, hg, ?_⟩
  · obtain ⟨p, hp, rfl⟩ := List.mem_map.1 (show w ∈ f.dom.map Prod.fst from hw)
    refine Dict.mem_keys_of_mem (d := r.dom) ?_
    rw [hd] at hp
    rw [r3]
    rcases List.mem_append.1 hp with hp | hp
    · exact List.mem_append_left _ (List.mem_filter.2 ⟨hp, by simpa using hu⟩)
    · rcases List.mem_cons.1 hp with rfl | hp
      · rw [Unseen, hl.1.1] at hu; cases hu
      · exact List.mem_append_right _ (List.mem_cons_of_mem _ (List.mem_filter.2 ⟨hp, by simpa using hu⟩))
  · rw [h1 v (Dict.mem_keys_of_mem (d := r.dom) hvr)]; exact hg

/-- **C08** a list in another order: some remaining state stands for another one of the list. -/
theorem C08_out_of_order {st l : List S} (hst : st.Nodup) (hl : l.Nodup) (hsub : ∀ s ∈ l, s ∈ st) (h : ¬ l.Sublist st) :
    ∃ (k : Nat) (x y : S), (st.filter fun s => s ∈ l)[k]? = some x ∧ l[k]? = some y ∧ x ≠ y := by
  by_contra hc
  have hlen : (st.filter fun s => s ∈ l).length = l.length := by
    refine List.Perm.length_eq ((List.perm_ext_iff_of_nodup (hst.filter _) hl).2 fun x => ?_)
    simp only [List.mem_filter, decide_eq_true_eq]
    exact ⟨fun h => h.2, fun hx => ⟨hsub x hx, hx⟩⟩
  refine h ?_
  have : (st.filter fun s => s ∈ l) = l := by
    refine List.ext_getElem hlen fun k h1 h2 => ?_
    by_contra hne
    exact hc ⟨k, _, _, List.getElem?_eq_getElem h1, List.getElem?_eq_getElem h2, hne⟩
  rw [← this]
  exact List.filter_sublist

/-- **C08** a variable that is not observed stands between two observed ones, and one stands before the restricted variable: the call raises unless all of the
latter have exactly as many states as the list. -/
theorem C08_apart {f : Factor (storeOf .numpy : StoreImpl V S α)} (hf : f.WF) {obs : List (V × ObsVal S)} (hok : ListObsOk f.dom obs)
    {A C : Dom V S} {v : V} {st l : List S} (hd : f.dom = A ++ (v, st) :: C) (hl : OnlyList obs f.vars v l) (hp : Apart obs f.vars) :
    (∃ r, f.restrictG obs = .ok r) ↔ ∀ p ∈ A, Unseen obs p.1 → p.2.length = l.length := by
  have hI := storeOf_lawful (V := V) (S := S) (α := α) .numpy
  have hD := hf.domOk hI
  have h1 := oneList_of hok hD.keys hd hl
  have hm := NumpyStore.restrictG_moved (s := f.store) hf hd h1 ((contiguous_iff f.dom).2 hp)
  have hvf : v ∈ f.vars := by
    show v ∈ Dict.keys f.dom
    rw [hd]; simp [Dict.keys]
  have hiff : (∀ p ∈ NumpyStore.free obs A, p.2.length = l.length) ↔ ∀ p ∈ A, Unseen obs p.1 → p.2.length = l.length := by
    rw [free_eq]
    exact ⟨fun h p hp hu => h p (List.mem_filter.2 ⟨hp, by simpa using hu⟩), fun h p hp => h p (List.mem_filter.1 hp).1 (by simpa using (List.mem_filter.1 hp).2)⟩
  rw [← hiff, ← hm, Factor.restrictG, if_neg]
  · have e : (storeOf .numpy : StoreImpl V S α).restrictG f.store obs = NumpyStore.restrictG f.store obs := rfl
    rw [e]
    constructor
    · rintro ⟨r, hr⟩
      cases hg : NumpyStore.restrictG f.store obs with
      | error e => rw [hg] at hr; cases hr
      | ok r => exact ⟨r, rfl⟩
    · rintro ⟨r, hr⟩
      rw [hr]
      refine ⟨_, Factor.build_right (I := (storeOf .numpy : StoreImpl V S α)) (st := r) ?_ _⟩
      have hrd := NumpyStore.restrictG_dom (fun p hp => seenOk_of hok hp) hr
      show DomOk r.dom
      rw [hrd, show f.store.dom = A ++ (v, st) :: C from hd, h1.parts.1]
      exact h1.domOk hd hD
  · intro h
    exact h v (Dict.mem_keys_of_mem (Dict.mem_of_get? hl.1.1)) hvf

theorem two_filterMap {β γ : Type} {g : β → Option γ} {d : List β} {p q : β} (hp : p ∈ d) (hq : q ∈ d) (hpq : p ≠ q) {x y : γ}
    (h1 : g p = some x) (h2 : g q = some y) : 2 ≤ (d.filterMap g).length := by
  have h0 : ∀ {d : List β} {p : β} {x : γ}, p ∈ d → g p = some x → 1 ≤ (d.filterMap g).length := fun hp h1 =>
    List.length_pos_of_mem (List.mem_filterMap.2 ⟨_, hp, h1⟩)
  induction d with
  | nil => cases hp
  | cons a d ih =>
    rw [List.filterMap_cons]
    rcases List.mem_cons.1 hp with rfl | hp'
    · rw [h1]
      rcases List.mem_cons.1 hq with rfl | hq'
      · exact absurd rfl hpq
      · have := h0 hq' h2
        simp only [List.length_cons]; omega
    · rcases List.mem_cons.1 hq with rfl | hq'
      · rw [h2]
        have := h0 hp' h1
        simp only [List.length_cons]; omega
      · have := ih hp' hq'
        cases g a <;> simp only [List.length_cons] <;> omega

/-- **C08** two lists of two or more states: the call always raises. -/
theorem C08_two_lists {f : Factor (storeOf .numpy : StoreImpl V S α)} (hf : f.WF) {obs : List (V × ObsVal S)} (hok : ListObsOk f.dom obs)
    {v w : V} {l l' : List S} (hv : v ∈ f.vars) (hw : w ∈ f.vars) (hvw : v ≠ w) (h1 : Restricts obs v l) (h2 : Restricts obs w l') :
    f.restrictG obs = .error .valueError ∨ f.restrictG obs = .error .indexError := by
  have hI := storeOf_lawful (V := V) (S := S) (α := α) .numpy
  have hl : 2 ≤ (NumpyStore.listed obs f.dom).length := by
    obtain ⟨p, hp, rfl⟩ := List.mem_map.1 (show v ∈ f.dom.map Prod.fst from hv)
    obtain ⟨q, hq, rfl⟩ := List.mem_map.1 (show w ∈ f.dom.map Prod.fst from hw)
    refine two_filterMap hp hq (fun h => hvw (by rw [h])) (x := l) (y := l') ?_ ?_
    · rw [seen_restricts h1]
    · rw [seen_restricts h2]
  have hr := NumpyStore.restrictG_lists (s := f.store) hf (fun p hp => seenOk_of hok hp) hl
  rw [Factor.restrictG, if_neg]
  · have e : (storeOf .numpy : StoreImpl V S α).restrictG f.store obs = NumpyStore.restrictG f.store obs := rfl
    rw [e]
    rcases hr with hr | hr <;> rw [hr]
    · exact .inl rfl
    · exact .inr rfl
  · intro h
    exact h v (Dict.mem_keys_of_mem (Dict.mem_of_get? h1.1)) hv

/-- **C08** no list of two or more states: the same as restriction to states. -/
theorem C08_no_lists {f : Factor (storeOf .numpy : StoreImpl V S α)} {obs : List (V × ObsVal S)} {e : Obs V S}
    (h : ∀ w, (Unseen obs w ∧ Dict.get? e w = none) ∨ ∃ s, Fixes obs w s ∧ Dict.get? e w = some s) : f.restrictG obs = f.restrict e := by
  have hk : ∀ w, w ∈ Dict.keys obs ↔ w ∈ Dict.keys e := by
    intro w
    rw [← Dict.get?_isSome, ← Dict.get?_isSome]
    rcases h w with ⟨h1, h2⟩ | ⟨s, h1, h2⟩
    · rw [h1, h2]; rfl
    · rcases h1 with h1 | h1 <;> rw [h1, h2] <;> rfl
  have hit : ∀ p : V × List S, NumpyStore.restrictItem obs p = NumpyStore.restrictItem (e.map fun q => (q.1, ObsVal.one q.2)) p := by
    intro p
    have hm : Dict.get? (e.map fun q => (q.1, ObsVal.one q.2)) p.1 = (Dict.get? e p.1).map ObsVal.one := by
      clear h hk
      induction e with
      | nil => rfl
      | cons q e ih =>
        rw [List.map_cons, Dict.get?, Dict.get?]
        by_cases hq : q.1 = p.1
        · simp [hq]
        · simp [hq, ih]
    rw [NumpyStore.restrictItem, NumpyStore.restrictItem, hm]
    rcases h p.1 with ⟨h1, h2⟩ | ⟨s, h1, h2⟩
    · rw [h1, h2]; rfl
    · rcases h1 with h1 | h1 <;> rw [h1, h2] <;> rfl
  have hs : (storeOf .numpy : StoreImpl V S α).restrictG f.store obs = (storeOf .numpy : StoreImpl V S α).restrict f.store e := by
    show NumpyStore.restrictG f.store obs = NumpyStore.restrictG f.store (e.map fun q => (q.1, ObsVal.one q.2))
    unfold NumpyStore.restrictG
    rw [show NumpyStore.restrictItem obs = NumpyStore.restrictItem (e.map fun q => (q.1, ObsVal.one q.2)) from funext hit]
  rw [Factor.restrictG, Factor.restrict, hs]
  have : (∀ v ∈ Dict.keys obs, v ∉ f.vars) ↔ ∀ v ∈ Dict.keys e, v ∉ f.vars := by simp only [hk]
  by_cases hc : ∀ v ∈ Dict.keys e, v ∉ f.vars
  · rw [if_pos (this.2 hc), if_pos hc]
  · rw [if_neg (fun h => hc (this.1 h)), if_neg hc]

/-! ### Examples -/

/-- Three variables, the one in the middle with three states -/
def dList : Dom Char Char := [('X', ['a', 'b']), ('Y', ['c', 'd', 'e']), ('Z', ['f', 'g'])]
theorem dList_ok : DomOk dList := ⟨by decide, by decide, by decide⟩

/-- X fixed, Y restricted to two of its states in the other order -/
def oList : List (Char × ObsVal Char) := [('X', .many ['a']), ('Y', .many ['e', 'c'])]

/-- X fixed, Z restricted to its two states -/
def oApart : List (Char × ObsVal Char) := [('X', .one 'a'), ('Z', .many ['f', 'g'])]

theorem exists_fList : ∃ f : Factor (storeOf .numpy : StoreImpl Char Char ℤ), f.WF ∧ f.dom = dList := by
  obtain ⟨f, _, h2, h3, _⟩ := Factor.make_ok (storeOf_lawful (V := Char) (S := Char) (α := ℤ) .numpy)
    (left := none) (right := none) (values := [1, 2, 3, 4, 5, 6, 7, 8, 9, 10, 11, 12]) dList_ok (by decide) rfl
  exact ⟨f, h2, h3⟩

/-- The hypotheses of `C08_one_list` are met, with a state in a list of its own before the list. -/
example : ∃ f : Factor (storeOf .numpy : StoreImpl Char Char ℤ), f.WF ∧ ListObsOk f.dom oList ∧
    f.dom = [('X', ['a', 'b'])] ++ ('Y', ['c', 'd', 'e']) :: [('Z', ['f', 'g'])] ∧ OnlyList oList f.vars 'Y' ['e', 'c'] ∧ ¬ Apart oList f.vars := by
  obtain ⟨f, h2, h3⟩ := exists_fList
  have hv : f.vars = Dict.keys dList := congrArg Dict.keys h3
  refine ⟨f, h2, ?_, h3, ⟨⟨rfl, by decide⟩, ?_⟩, ?_⟩
  · rw [h3]; simp [ListObsOk, dList, oList, Dict.get?]
  · rw [hv]
    simp [dList, Dict.keys, Restricts, oList, Dict.get?]
  · rw [hv, ← contiguous_iff]; decide

/-- It succeeds: the rows of Y appear as listed under labels in domain order. -/
theorem C08_one_list_example :
    (do let f ← Factor.make (storeOf .numpy : StoreImpl Char Char ℤ) dList [1, 2, 3, 4, 5, 6, 7, 8, 9, 10, 11, 12] none none
        let r ← f.restrictG oList
        let x ← r.getValue [('Y', 'c'), ('Z', 'f')]
        let y ← f.getValue [('X', 'a'), ('Y', 'e'), ('Z', 'f')]
        return (r.dom, x, y)) = (.ok ([('Y', ['c', 'e']), ('Z', ['f', 'g'])], 5, 5) : Py _) := by decide +kernel

/-- The hypotheses of `C08_apart` are met, and Y has not as many states as the list: the call raises. -/
theorem C08_apart_example : ∃ f : Factor (storeOf .numpy : StoreImpl Char Char ℤ), f.WF ∧ Apart oApart f.vars ∧ OnlyList oApart f.vars 'Z' ['f', 'g'] ∧
    ¬ ∃ r, f.restrictG oApart = .ok r := by
  obtain ⟨f, h2, h3⟩ := exists_fList
  have hv : f.vars = Dict.keys dList := congrArg Dict.keys h3
  have ha : Apart oApart f.vars := by
    rw [hv]
    exact ⟨'X', 'Y', 'Z', by decide, by decide, by decide, by decide⟩
  have hl : OnlyList oApart f.vars 'Z' ['f', 'g'] := by
    refine ⟨⟨rfl, by decide⟩, ?_⟩
    rw [hv]
    simp [dList, Dict.keys, Restricts, oApart, Dict.get?]
  refine ⟨f, h2, ha, hl, ?_⟩
  rw [C08_apart h2 (A := [('X', ['a', 'b']), ('Y', ['c', 'd', 'e'])]) (C := []) (st := ['f', 'g']) (by rw [h3]; simp [ListObsOk, dList, oApart, Dict.get?]) h3 hl ha]
  intro h
  exact absurd (h ('Y', ['c', 'd', 'e']) (by simp) (by decide)) (by decide)

end Verif.Props
