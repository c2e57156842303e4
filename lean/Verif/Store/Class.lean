import Verif.Store.NumpyLemmas
import Verif.Store.FlatLemmas
import Verif.Store.TreeLemmas2

/-!
# The store interface (`factors/values/store.py`, `factors/values/__init__.py`)

`MultinomialFactor` selects its store with `store_dict[vtype]`.  Here the four stores are
collected behind one record of operations; `WF` and `sem` are ghost fields used to
state the laws, proved for each of them.
-/

set_option linter.unusedSectionVars false
set_option linter.unusedSimpArgs false

namespace Verif

/-- `factors/values/__init__.py:6` keys of `store_dict` -/
inductive VType | numpy | numpy1d | list | treedict
  deriving DecidableEq, Repr

/-- Operations of a store (`store.py:113-163`). -/
structure StoreImpl (V S α : Type) where
  St : Type
  /-- `store.domain` -/
  dom : St → Dom V S
  /-- constructor from flat row-major values -/
  ofFlat : Dom V S → List α → Py St
  getValue : St → Obs V S → Py α
  setValue : St → α → Obs V S → Py St
  restrict : St → Obs V S → Py St
  restrictG : St → List (V × ObsVal S) → Py St
  combine : (α → α → α) → St → St → Py St
  marginalize : St → List V → Py St
  /-- what the store does to a quotient: `np.nan_to_num` or nothing -/
  divWrap : (α → α) → α → α
  /-- ghost: well-formed stores and their value at an assignment -/
  WF : St → Prop
  sem : St → (V → S) → α

variable {V S α : Type} [DecidableEq V] [DecidableEq S] [Inhabited α]

namespace StoreImpl

/-- `store.py:150-152` `values_list` -/
def valuesList (I : StoreImpl V S α) (s : I.St) : Py (List α) :=
  (assignmentSpace (I.dom s)).mapM (I.getValue s)

/-- The laws every store satisfies. -/
structure Lawful [AddCommMonoid α] (I : StoreImpl V S α) : Prop where
  wf_dom : ∀ {s}, I.WF s → DomOk (I.dom s)
  sem_congr : ∀ {s}, I.WF s → ∀ {a b : V → S}, (∀ v ∈ Dict.keys (I.dom s), a v = b v) →
    I.sem s a = I.sem s b
  ofFlat_ok : ∀ {d : Dom V S} {data : List α}, DomOk d → data.length = (cards d).prod →
    ∃ r, I.ofFlat d data = .ok r ∧ I.WF r ∧ I.dom r = d ∧
      ∀ a, InDom d a → I.sem r a = data.getD (ravel (cards d) (coords d a)) default
  ofFlat_error : ∀ {d : Dom V S} {data : List α}, data.length ≠ (cards d).prod →
    I.ofFlat d data = .error .valueError
  getValue_ok : ∀ {s}, I.WF s → ∀ {obs : Obs V S} {a : V → S}, InDom (I.dom s) a →
    Covers (I.dom s) obs a → I.getValue s obs = .ok (I.sem s a)
  setValue_ok : ∀ {s}, I.WF s → ∀ {obs : Obs V S} {b : V → S} (x : α), InDom (I.dom s) b →
    Covers (I.dom s) obs b →
    ∃ r, I.setValue s x obs = .ok r ∧ I.WF r ∧ I.dom r = I.dom s ∧
      (∀ a, InDom (I.dom s) a → (∀ v ∈ Dict.keys (I.dom s), a v = b v) → I.sem r a = x) ∧
      (∀ a, InDom (I.dom s) a → ¬ (∀ v ∈ Dict.keys (I.dom s), a v = b v) → I.sem r a = I.sem s a)
  restrict_ok : ∀ {s}, I.WF s → ∀ {obs : Obs V S}, ObsOk (I.dom s) obs →
    ∃ r, I.restrict s obs = .ok r ∧ I.WF r ∧
      I.dom r = (I.dom s).filter (fun p => p.1 ∉ Dict.keys obs) ∧
      ∀ a, InDom (I.dom r) a → I.sem r a = I.sem s (over obs a)
  restrict_error : ∀ {s}, I.WF s → ∀ {obs : Obs V S}, ¬ ObsOk (I.dom s) obs →
    ∃ e, I.restrict s obs = .error e
  combine_ok : ∀ (op : α → α → α) {s t}, I.WF s → I.WF t → Compat (I.dom s) (I.dom t) →
    ∃ r, I.combine op s t = .ok r ∧ I.WF r ∧ I.dom r = domUnion (I.dom s) (I.dom t) ∧
      ∀ a, InDom (I.dom r) a → I.sem r a = op (I.sem s a) (I.sem t a)
  marginalize_ok : ∀ {s}, I.WF s → ∀ {vars : List V}, (∀ v ∈ vars, v ∈ Dict.keys (I.dom s)) →
    vars.Nodup →
    ∃ r, I.marginalize s vars = .ok r ∧ I.WF r ∧ I.dom r = domOut (I.dom s) vars ∧
      ∀ a, InDom (I.dom r) a → I.sem r a = sumStates (I.sem s) (domIn (I.dom s) vars) a
  divWrap_or : (I.divWrap = fun f => f) ∨ (I.divWrap = fun _ x => x)

end StoreImpl

/-! ### Numpy -/

namespace NumpyStore

/-- Flat values reshaped, `mulitnomial.py:30` `np.reshape` (`ValueError` when the number of
values is wrong), then the constructor. -/
def ofFlat (d : Dom V S) (data : List α) : Py (NumpyStore V S α) :=
  if data.length = (cards d).prod then mk? d ⟨cards d, data⟩ else .error .valueError

theorem setValue_ok {s : NumpyStore V S α} (hs : s.WF) {obs : Obs V S} {b : V → S} (x : α)
    (hb : InDom s.dom b) (hc : Covers s.dom obs b) :
    ∃ r, s.setValue x obs = .ok r ∧ r.WF ∧ r.dom = s.dom ∧
      (∀ a, InDom s.dom a → (∀ v ∈ Dict.keys s.dom, a v = b v) → r.sem a = x) ∧
      (∀ a, InDom s.dom a → ¬ (∀ v ∈ Dict.keys s.dom, a v = b v) → r.sem a = s.sem a) := by
  have hitems : (s.dom.mapM fun p => do
      let o ← Dict.get obs p.1
      stateIdx p.2 o) = (.ok (coords s.dom b) : Py _) := by
    refine mapM_ok fun p hp => ?_
    have := hc p.1 (Dict.mem_keys_of_mem hp)
    simp [Dict.get, this, stateIdx, hb p hp]
  have hv := validIdx_coords hb
  have hlt := ravel_lt hv
  have hlen : s.data.flat.length = (cards s.dom).prod := by
    have := hs.data; rw [NdArray.WF, hs.shape] at this; exact this
  refine ⟨⟨s.dom, ⟨s.data.shape, s.data.flat.set (ravel s.data.shape (coords s.dom b)) x⟩⟩, ?_, ?_, rfl,
    ?_, ?_⟩
  · rw [setValue, hitems]; rfl
  · refine ⟨hs.dom, ?_, hs.shape⟩
    have := hs.data
    simp only [NdArray.WF, List.length_set] at this ⊢
    exact this
  · intro a _ hab
    rw [sem, coords_congr hab, NdArray.get]
    simp only [hs.shape]
    rw [List.getD_eq_getElem?_getD, List.getElem?_set_self (by rw [hlen]; exact hlt)]; rfl
  · intro a ha hab
    rw [sem, sem, NdArray.get, NdArray.get]
    simp only [hs.shape]
    rw [List.getD_eq_getElem?_getD, List.getElem?_set_ne, List.getD_eq_getElem?_getD]
    intro he
    apply hab
    have := ravel_injOn hv (validIdx_coords ha) he
    intro v hv
    obtain ⟨st, hst⟩ := Dict.mem_keys.1 hv
    have h2 : st.idxOf (b v) = st.idxOf (a v) := by
      have := List.map_inj_left.1 this (v, st) hst
      simpa using this
    have := (List.idxOf_inj (hb _ hst)).1 h2
    exact this.symm

theorem restrict_error {s : NumpyStore V S α} {obs : Obs V S} (ho : ¬ ObsOk s.dom obs) :
    s.restrict obs = .error .indexError := by
  simp only [ObsOk] at ho
  push Not at ho
  obtain ⟨p, hp, x, hx, hbad⟩ := ho
  have : ∀ l : Dom V S, p ∈ l →
      l.mapM (restrictItem (obs.map fun p => (p.1, ObsVal.one p.2))) = .error .indexError := by
    intro l
    induction l with
    | nil => intro h; simp at h
    | cons q l ih =>
      intro h
      rw [List.mapM_cons]
      rcases hg : Dict.get? obs q.1 with _ | y
      · have hne : p ≠ q := by rintro rfl; rw [hx] at hg; cases hg
        rw [ih ((List.mem_cons.1 h).resolve_left hne)]
        simp [restrictItem, get?_map_one, hg]
      · by_cases hy : y ∈ q.2
        · have hne : p ≠ q := by
            rintro rfl
            rw [hx] at hg; cases hg; exact hbad hy
          rw [ih ((List.mem_cons.1 h).resolve_left hne)]
          simp [restrictItem, get?_map_one, hg, ObsVal.unwrap, stateIdx, hy]
        · simp [restrictItem, get?_map_one, hg, ObsVal.unwrap, stateIdx, hy]
  rw [restrict, restrictG, this s.dom hp]; rfl

/-- The numpy store as an implementation. -/
def impl [AddCommMonoid α] : StoreImpl V S α where
  St := NumpyStore V S α
  dom := NumpyStore.dom
  ofFlat := ofFlat
  getValue := getValue
  setValue := setValue
  restrict := restrict
  restrictG := restrictG
  combine := combine
  marginalize := marginalize
  divWrap f := f
  WF := WF
  sem := sem

theorem lawful [AddCommMonoid α] : (impl (V := V) (S := S) (α := α)).Lawful where
  wf_dom h := h.dom
  sem_congr _ _ _ h := sem_congr h
  ofFlat_ok {d data} hd hl := by
    refine ⟨⟨d, ⟨cards d, data⟩⟩, ?_, ⟨hd, hl, rfl⟩, rfl, ?_⟩
    · simp [impl, ofFlat, hl, mk?]
    · intro a _; rfl
  ofFlat_error h := by simp [impl, ofFlat, h]
  getValue_ok hs _ _ ha hc := getValue_ok hs ha hc
  setValue_ok hs _ _ x hb hc := setValue_ok hs x hb hc
  restrict_ok hs _ ho := restrict_ok hs ho
  restrict_error _ _ ho := ⟨_, restrict_error ho⟩
  combine_ok op _ _ hs ht hc := combine_ok op hs ht hc
  marginalize_ok {s} hs vars hsub hnd := by
    obtain ⟨r, h1, h2, h3, h4⟩ := reduceVars_ok hs List.sum hsub hnd
    exact ⟨r, h1, h2, h3, fun a ha => (h4 a ha).trans (sumStates_eq_variants s.sem _ a).symm⟩
  divWrap_or := Or.inl rfl

end NumpyStore

/-! ### Flat stores -/

namespace FlatStore

theorem setValue_sem {s : FlatStore V S α} (hs : s.WF) {obs : Obs V S} {b : V → S} (x : α)
    (hb : InDom s.dom b) (hc : Covers s.dom obs b) :
    ∃ r, s.setValue x obs = .ok r ∧ r.WF ∧ r.dom = s.dom ∧
      (∀ a, InDom s.dom a → (∀ v ∈ Dict.keys s.dom, a v = b v) → r.sem a = x) ∧
      (∀ a, InDom s.dom a → ¬ (∀ v ∈ Dict.keys s.dom, a v = b v) → r.sem a = s.sem a) := by
  have hv := validIdx_coords hb
  have hlt := ravel_lt hv
  refine ⟨_, setValue_ok hs x hb hc, ⟨hs.dom, by simpa using hs.len⟩, rfl, ?_, ?_⟩
  · intro a _ hab
    rw [sem]
    simp only [coords_congr hab]
    rw [List.getD_eq_getElem?_getD, List.getElem?_set_self (by rw [hs.len]; exact hlt)]; rfl
  · intro a ha hab
    rw [sem, sem]
    simp only []
    rw [List.getD_eq_getElem?_getD, List.getElem?_set_ne, List.getD_eq_getElem?_getD]
    intro he
    apply hab
    have := ravel_injOn hv (validIdx_coords ha) he
    intro v hv
    obtain ⟨st, hst⟩ := Dict.mem_keys.1 hv
    have h2 : st.idxOf (b v) = st.idxOf (a v) := by
      have := List.map_inj_left.1 this (v, st) hst
      simpa using this
    exact ((List.idxOf_inj (hb _ hst)).1 h2).symm

theorem restrict_error {s : FlatStore V S α} (hs : (Dict.keys s.dom).Nodup) {obs : Obs V S}
    (ho : ¬ ObsOk s.dom obs) : s.restrict obs = .error .indexError := by
  simp only [ObsOk] at ho
  push Not at ho
  obtain ⟨p, hp, x, hx, hbad⟩ := ho
  rw [restrict, indexList_error hs hp hx hbad]; rfl

end FlatStore

namespace ListStore
open FlatStore

/-- The list store as an implementation. -/
def impl [AddCommMonoid α] : StoreImpl V S α where
  St := FlatStore V S α
  dom := FlatStore.dom
  ofFlat := mk?
  getValue := getValue
  setValue := setValue
  restrict := restrict
  restrictG := restrictG
  combine := combine
  marginalize := marginalize
  divWrap _ x := x
  WF := FlatStore.WF
  sem := sem

theorem setCompat_of_compat {d1 d2 : Dom V S} (h : Compat d1 d2) : SetCompat d1 d2 :=
  fun p hp q hq e => by rw [h p hp q hq e]

theorem lawful [Nonempty S] [AddCommMonoid α] : (impl (V := V) (S := S) (α := α)).Lawful where
  wf_dom h := h.dom
  sem_congr _ _ _ h := sem_congr h
  ofFlat_ok {d data} hd hl := ⟨⟨d, data⟩, by simp [impl, mk?, hl], ⟨hd, hl⟩, rfl, fun a _ => rfl⟩
  ofFlat_error h := by simp [impl, mk?, h]
  getValue_ok hs _ _ ha hc := getValue_ok hs ha hc
  setValue_ok hs _ _ x hb hc := setValue_sem hs x hb hc
  restrict_ok hs _ ho := restrict_ok hs ho
  restrict_error hs _ ho := ⟨_, restrict_error hs.dom.keys ho⟩
  combine_ok op _ _ hs ht hc := by
    obtain ⟨r, h1, h2, h3, h4⟩ := combine_ok op hs ht (setCompat_of_compat hc)
    exact ⟨r, h1, h2, h3.trans (merge_eq_domUnion hc), h4⟩
  marginalize_ok {s} hs vars hsub hnd := by
    obtain ⟨r, h1, h2, h3, h4⟩ := reduceVars_ok hs List.sum vars
    exact ⟨r, h1, h2, h3, fun a ha => (h4 a ha).trans (sumStates_eq_variants (FlatStore.sem s) _ a).symm⟩
  divWrap_or := Or.inr rfl

end ListStore

namespace Numpy1DStore
open FlatStore

/-- The flat numpy store as an implementation. -/
def impl [AddCommMonoid α] : StoreImpl V S α where
  St := FlatStore V S α
  dom := FlatStore.dom
  ofFlat := mk?
  getValue := getValue
  setValue := setValue
  restrict := restrict
  restrictG := restrictG
  combine := combine
  marginalize := marginalize
  divWrap _ x := x
  WF := FlatStore.WF
  sem := sem

theorem lawful [Nonempty S] [AddCommMonoid α] : (impl (V := V) (S := S) (α := α)).Lawful where
  wf_dom h := h.dom
  sem_congr _ _ _ h := sem_congr h
  ofFlat_ok {d data} hd hl := ⟨⟨d, data⟩, by simp [impl, mk?, hl], ⟨hd, hl⟩, rfl, fun a _ => rfl⟩
  ofFlat_error h := by simp [impl, mk?, h]
  getValue_ok hs _ _ ha hc := getValue_ok hs ha hc
  setValue_ok hs _ _ x hb hc := setValue_sem hs x hb hc
  restrict_ok hs _ ho := restrict_ok hs ho
  restrict_error hs _ ho := ⟨_, restrict_error hs.dom.keys ho⟩
  combine_ok op _ _ hs ht hc := by
    obtain ⟨r, h1, h2, h3, h4⟩ := combine_ok op hs ht (ListStore.setCompat_of_compat hc)
    exact ⟨r, h1, h2, h3.trans (merge_eq_domUnion hc), h4⟩
  marginalize_ok {s} hs vars hsub hnd := by
    obtain ⟨r, h1, h2, h3, h4⟩ := marginalize_ok hs vars
    exact ⟨r, h1, h2, h3, fun a ha => (h4 a ha).trans (sumStates_eq_variants (FlatStore.sem s) _ a).symm⟩
  divWrap_or := Or.inr rfl

end Numpy1DStore

/-! ### Trees -/

namespace TreeStore

mutual
theorem Tree.restrict_error : ∀ {d : Dom V S} {t : Tree V S α} {obs : Obs V S},
    DomOk d → Tree.Ok d t → Tree.Full (Dict.keys d) t → ¬ ObsOk d obs →
    ∃ e, Tree.restrict obs t = .error e
  | d, .leaf x, obs, _, _, hf, ho => by
    rw [Tree.Full] at hf
    exfalso; apply ho
    intro p hp
    have := Dict.mem_keys_of_mem hp
    rw [hf] at this; simp at this
  | d, .node v ch, obs, hd, hok, hf, ho => by
    rw [Tree.Ok] at hok
    obtain ⟨⟨st, hst, hperm⟩, hfo⟩ := hok
    rw [Tree.Full, ← Dict.keys_filter_key d (fun w => w ≠ v)] at hf
    have h0 : ¬ obs.length = 0 := by
      intro h
      have : obs = [] := List.length_eq_zero_iff.1 h
      subst this
      exact ho fun p _ x hx => by simp [Dict.get?] at hx
    have hd' : DomOk (d.filter fun p => p.1 ≠ v) := hd.filter (fun w => w ≠ v)
    rw [Tree.restrict, if_neg h0]
    rcases hg : Dict.get? obs v with _ | s
    · have ho' : ¬ ObsOk (d.filter fun p => p.1 ≠ v) obs := by
        intro h
        apply ho
        intro p hp x hx
        refine h p (List.mem_filter.2 ⟨hp, ?_⟩) x hx
        have : p.1 ≠ v := by rintro e; rw [e, hg] at hx; cases hx
        simpa using this
      have hne : ch.keys ≠ [] := by
        intro h; rw [h] at hperm; exact hd.nonempty _ hst hperm.nil_eq.symm
      obtain ⟨e, he⟩ := Forest.restrictAll_error hd' hfo hf ho' hne
      exact ⟨e, by simp [he]⟩
    · by_cases hs : s ∈ st
      · have ho' : ¬ ObsOk (d.filter fun p => p.1 ≠ v) (obs.filter fun p => p.1 ≠ v) := by
          intro h
          apply ho
          intro p hp x hx
          by_cases hpv : p.1 = v
          · rw [hpv, hg] at hx
            cases hx
            have e1 : Dict.get? d p.1 = some p.2 := Dict.get?_of_mem hd.keys hp
            have e2 : Dict.get? d v = some st := Dict.get?_of_mem hd.keys hst
            rw [hpv, e2] at e1
            rw [← Option.some.inj e1]; exact hs
          · refine h p (List.mem_filter.2 ⟨hp, by simpa using hpv⟩) x ?_
            rw [Dict.get?_filter_key obs (fun w => w ≠ v), if_pos hpv]; exact hx
        have hk : s ∈ ch.keys := hperm.mem_iff.2 hs
        obtain ⟨e, he⟩ := Forest.restrictAt_error hd' hfo hf (Or.inr ho')  (s := s)
        exact ⟨e, by simpa using he⟩
      · have hk : s ∉ ch.keys := fun h => hs (hperm.mem_iff.1 h)
        obtain ⟨e, he⟩ := Forest.restrictAt_error (obs := obs.filter fun p => p.1 ≠ v) hd' hfo hf (Or.inl hk)
        exact ⟨e, by simpa using he⟩
theorem Forest.restrictAll_error : ∀ {d : Dom V S} {f : Forest V S α} {obs : Obs V S},
    DomOk d → Forest.Ok d f → Forest.Full (Dict.keys d) f → ¬ ObsOk d obs → f.keys ≠ [] →
    ∃ e, Forest.restrictAll obs f = .error e
  | d, .nil, obs, _, _, _, _, h => by simp [Forest.keys] at h
  | d, .cons s t f, obs, hd, hok, hf, ho, _ => by
    rw [Forest.Ok] at hok
    rw [Forest.Full] at hf
    obtain ⟨e, he⟩ := Tree.restrict_error hd hok.1 hf.1 ho
    exact ⟨e, by simp [Forest.restrictAll, he]⟩
theorem Forest.restrictAt_error : ∀ {d : Dom V S} {f : Forest V S α} {obs : Obs V S} {s : S},
    DomOk d → Forest.Ok d f → Forest.Full (Dict.keys d) f → s ∉ f.keys ∨ ¬ ObsOk d obs →
    ∃ e, Forest.restrictAt obs s f = .error e
  | d, .nil, obs, s, _, _, _, _ => ⟨_, by rw [Forest.restrictAt]⟩
  | d, .cons s' t f, obs, s, hd, hok, hf, ho => by
    rw [Forest.Ok] at hok
    rw [Forest.Full] at hf
    by_cases he : s' = s
    · have ho' : ¬ ObsOk d obs := ho.resolve_left (by simp [Forest.keys, he])
      obtain ⟨e, h⟩ := Tree.restrict_error hd hok.1 hf.1 ho'
      exact ⟨e, by rw [Forest.restrictAt, if_pos he, h]⟩
    · obtain ⟨e, h⟩ := Forest.restrictAt_error hd hok.2 hf.2 (s := s) (obs := obs)
        (ho.imp (fun h => by simp only [Forest.keys, List.mem_cons, not_or] at h; exact h.2) id)
      exact ⟨e, by rw [Forest.restrictAt, if_neg he, h]⟩
end

/-- Flat values through `np.reshape` (`mulitnomial.py:30`), then the constructor. -/
def ofFlat? (d : Dom V S) (data : List α) : Py (TreeStore V S α) :=
  if data.length = (cards d).prod then .ok (ofFlat d data) else .error .valueError

/-- The tree store as an implementation. -/
def impl [AddCommMonoid α] : StoreImpl V S α where
  St := TreeStore V S α
  dom := TreeStore.dom
  ofFlat := ofFlat?
  getValue := getValue
  setValue := setValue
  restrict := restrict
  restrictG := restrictG
  combine := combine
  marginalize := marginalize
  divWrap _ x := x
  WF := WF
  sem := sem

theorem lawful [AddCommMonoid α] : (impl (V := V) (S := S) (α := α)).Lawful where
  wf_dom h := h.dom
  sem_congr hs _ _ h := sem_congr hs h
  ofFlat_ok {d data} hd hl :=
    ⟨ofFlat d data, by simp [impl, ofFlat?, hl], (ofFlat_ok hd hl).1, rfl, (ofFlat_ok hd hl).2⟩
  ofFlat_error h := by simp [impl, ofFlat?, h]
  getValue_ok hs _ _ ha hc := getValue_ok hs ha hc
  setValue_ok hs _ _ x hb hc := by
    obtain ⟨r, h1, h2, h3, h4, h5⟩ := setValue_ok hs x hb hc
    exact ⟨r, h1, h2, h3, fun a _ h => h4 a h, fun a _ h => h5 a h⟩
  restrict_ok hs _ ho := restrict_ok hs ho
  restrict_error hs obs ho := by
    obtain ⟨e, he⟩ := Tree.restrict_error hs.dom hs.ok hs.full ho
    exact ⟨e, by simp only [impl, restrict, he]; rfl⟩
  combine_ok op _ _ hs ht hc := by
    obtain ⟨r, h1, h2, h3, h4⟩ := combine_ok op hs ht (ListStore.setCompat_of_compat hc)
    exact ⟨r, h1, h2, h3.trans (merge_eq_domUnion hc), h4⟩
  marginalize_ok {s} hs vars hsub hnd := by
    obtain ⟨r, h1, h2, h3, h4⟩ := marginalize_ok hs hsub hnd
    exact ⟨r, h1, h2, h3, fun a ha => (h4 a ha).trans (sumStates_eq_variants s.sem _ a).symm⟩
  divWrap_or := Or.inr rfl

end TreeStore

/-- `store_dict[vtype]` -/
def storeOf [AddCommMonoid α] : VType → StoreImpl V S α
  | .numpy => NumpyStore.impl
  | .numpy1d => Numpy1DStore.impl
  | .list => ListStore.impl
  | .treedict => TreeStore.impl

theorem storeOf_lawful [Nonempty S] [AddCommMonoid α] (vt : VType) :
    (storeOf vt : StoreImpl V S α).Lawful := by
  cases vt
  · exact NumpyStore.lawful
  · exact Numpy1DStore.lawful
  · exact ListStore.lawful
  · exact TreeStore.lawful

end Verif
