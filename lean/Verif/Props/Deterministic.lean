import Verif.Factor.Canonical
import Verif.Props.Factors

/-!
# Properties of deterministic factors (C16, C17, C18, C19)
-/

set_option linter.unusedSectionVars false
set_option linter.unusedSimpArgs false

namespace Verif.Props
open Verif

variable {V S α : Type} [DecidableEq V] [DecidableEq S] [Inhabited S] [Inhabited α] [AddCommMonoid α]

/-- A deterministic factor X = f(Y): c ↦ a, d ↦ b, e ↦ a. -/
theorem ex_det (vt : VType) : ∃ f : DetFactor (labelStoreOf vt : LabelStore Char Char),
    DetFactor.make _ dXY ⟨[3], ['a', 'b', 'a']⟩ (some ['X']) none = .ok f ∧ f.WF ∧ f.leftVars = ['X'] ∧ f.dom = dXY ∧
      f.rightVars = ['Y'] := by
  obtain ⟨f, h1, h2, h3, h4, h5, _⟩ := DetFactor.make_ok (labelStoreOf_lawful (V := Char) (S := Char) vt)
    (left := some ['X']) (right := none) (values := ['a', 'b', 'a']) (x := 'X') (r := ['Y']) dXY_ok rfl
    (by decide) (by decide) (by decide)
  exact ⟨f, h1, h2, h5, h3, h4⟩

/-! ### C16 -/

/-- **C16** the table of a structural equation is one exactly where the left state is the value of the
function, zero elsewhere, and `eval` says the same. -/
theorem C16_to_multinomial [One α] (vt : VType) {f : DetFactor (labelStoreOf vt : LabelStore V S)} (hf : f.WF)
    {x : V} (hx : f.leftVars = [x]) :
    ∃ r, f.toMultinomial (storeOf vt : StoreImpl V S α) = .ok r ∧ r.WF ∧ r.dom = f.dom ∧ r.leftVars = [x] ∧
      r.rightVars = f.rightVars ∧
      ∀ obs s, FullObs f.dom obs → Dict.get? obs x = some s →
        ∃ y, f.getValue obs = .ok y ∧ f.eval obs = .ok (decide (y = s)) ∧
          r.getValue obs = .ok (if y = s then 1 else 0) := by
  have hL := labelStoreOf_lawful (V := V) (S := S) vt
  have hI := storeOf_lawful (V := V) (S := S) (α := α) vt
  have hvals : ((assignmentSpace f.dom).mapM fun obs => do
      let b ← f.eval obs
      return if b then (1 : α) else 0)
      = (.ok ((assignmentSpace f.dom).map fun o => if f.fn (asg o) = asg o x then (1 : α) else 0) : Py _) := by
    refine mapM_ok fun o ho => ?_
    rw [DetFactor.eval_ok hL hf (mem_assignmentSpace_fullObs hf.dom.keys ho) hx]
    simp
  obtain ⟨r, h1, h2, h3, h4, h5⟩ := Factor.make_ok hI (d := f.dom)
    (values := (assignmentSpace f.dom).map fun o => if f.fn (asg o) = asg o x then (1 : α) else 0)
    (left := none) (right := some f.rightVars) (r := f.rightVars) hf.dom
    (by simp [assignmentSpace, stateSpace, length_product, cards, Function.comp_def]) rfl
  refine ⟨r, ?_, h2, h3, ?_, h4, ?_⟩
  · rw [DetFactor.toMultinomial, hvals, py_ok_bind, h1]
  · rw [← hx, Factor.leftVars, Factor.vars, h3, h4]; rfl
  · intro obs s ho hs
    have hfr : FullObs f.rightDomain obs := ho.mono fun p hp => (List.mem_filter.1 hp).1
    have hax : asg obs x = s := by rw [asg, over_of_get? hs]
    refine ⟨_, DetFactor.getValue_full hL hf hfr, ?_, ?_⟩
    · rw [DetFactor.eval_ok hL hf ho hx, hax]
    · rw [Factor.getValue_full hI h2 (by rw [h3]; exact ho), h5 _ ho.inDom, List.getD_eq_getElem?_getD,
        List.getElem?_map, assignmentSpace_getElem? ho.inDom]
      simp only [Option.map_some, Option.getD_some]
      have hc : ∀ v ∈ f.vars, (asg (f.dom.map fun p => (p.1, asg obs p.1)) : V → S) v = asg obs v := by
        intro v hv
        have := covers_map f.dom (asg obs) (e := f.dom) (fun v h => h) v hv
        exact over_of_get? this
      have hxv : x ∈ f.vars := by
        have : x ∈ f.leftVars := by rw [hx]; simp
        exact (List.mem_filter.1 this).1
      rw [hc x hxv, hax, DetFactor.fn_congr hL hf fun v hv => hc v (hf.right v hv)]

/-- **C16** (normalisation) when the function's value is a state of X, the column of the table sums to
one. -/
theorem C16_column_sums [One α] (vt : VType) {f : DetFactor (labelStoreOf vt : LabelStore V S)} (hf : f.WF)
    {x : V} {st : List S} (hx : f.leftVars = [x]) (hst : (x, st) ∈ f.dom) {obs : Obs V S} (ho : FullObs f.rightDomain obs)
    {y : S} (hy : f.getValue obs = .ok y) (hys : y ∈ st) :
    ∃ r l, f.toMultinomial (storeOf vt : StoreImpl V S α) = .ok r ∧
      (st.mapM fun s => r.getValue ((x, s) :: obs)) = .ok l ∧ l.sum = 1 := by
  obtain ⟨r, h1, h2, h3, h4, h5, h6⟩ := C16_to_multinomial (α := α) vt hf hx
  have hL := labelStoreOf_lawful (V := V) (S := S) vt
  refine ⟨r, st.map fun s => if y = s then 1 else 0, h1, ?_, ?_⟩
  · refine mapM_ok fun s hs => ?_
    have hkx : ∀ p ∈ f.dom, p.1 ∉ f.rightVars → p.1 = x := by
      intro p hp h
      have : p.1 ∈ f.leftVars := List.mem_filter.2 ⟨Dict.mem_keys_of_mem hp, by simpa using h⟩
      rw [hx] at this; simpa using this
    have hxr : x ∉ f.rightVars := by
      have : x ∈ f.leftVars := by rw [hx]; simp
      simpa using (List.mem_filter.1 this).2
    have hfull : FullObs f.dom ((x, s) :: obs) := by
      intro p hp
      by_cases e : p.1 ∈ f.rightVars
      · obtain ⟨t, ht, hg⟩ := ho p (List.mem_filter.2 ⟨hp, by simpa using e⟩)
        have : x ≠ p.1 := fun h => hxr (h ▸ e)
        exact ⟨t, ht, by simp [Dict.get?, this, hg]⟩
      · have e' := hkx p hp e
        have : p.2 = st := by
          have a1 : Dict.get? f.dom p.1 = some p.2 := Dict.get?_of_mem hf.dom.keys hp
          have a2 : Dict.get? f.dom x = some st := Dict.get?_of_mem hf.dom.keys hst
          rw [e', a2] at a1; exact (Option.some.inj a1).symm
        exact ⟨s, by rw [this]; exact hs, by simp [Dict.get?, e']⟩
    obtain ⟨y', e1, _, e3⟩ := h6 _ s hfull (by simp [Dict.get?])
    have : y' = y := by
      have hfr : FullObs f.rightDomain ((x, s) :: obs) := hfull.mono fun p hp => (List.mem_filter.1 hp).1
      rw [DetFactor.getValue_full hL hf hfr] at e1
      rw [DetFactor.getValue_full hL hf ho] at hy
      rw [← Except.ok.inj e1, ← Except.ok.inj hy]
      refine DetFactor.fn_congr hL hf fun v hv => ?_
      have : x ≠ v := fun h => hxr (h ▸ hv)
      simp [asg, over, Dict.get?, this]
    rw [e3, this]
  · rw [sum_map_ite_eq (hf.dom.states _ hst), if_pos hys]

example (vt : VType) : ∃ f : DetFactor (labelStoreOf vt : LabelStore Char Char), f.WF ∧ f.leftVars = ['X'] ∧
    ('X', ['a', 'b']) ∈ f.dom ∧ FullObs f.rightDomain [('Y', 'd')] := by
  obtain ⟨f, _, h2, h3, h4, h5⟩ := ex_det vt
  refine ⟨f, h2, h3, by rw [h4]; decide, ?_⟩
  rw [DetFactor.rightDomain, h4, h5]
  intro p hp
  have : p = ('Y', ['c', 'd', 'e']) := by simpa [dXY] using hp
  subst this
  exact ⟨'d', by decide, rfl⟩

example : ∀ vt ∈ [VType.numpy, .numpy1d, .list, .treedict],
    (do let f ← DetFactor.make (labelStoreOf vt : LabelStore Char Char) dXY ⟨[3], ['a', 'b', 'a']⟩ (some ['X']) none
        let r ← f.toMultinomial (storeOf vt : StoreImpl Char Char ℤ)
        r.valuesList) = (.ok [1, 0, 1, 0, 1, 0] : Py _) := by
  decide +kernel

/-! ### C17 -/

/-- A table in which every column has a single one and zeros elsewhere. -/
def Degenerate [One α] {I : StoreImpl V S α} (f : Factor I) (x : V) : Prop :=
  ∃ g : (V → S) → S, (∀ a b : V → S, (∀ v ∈ f.vars, v ≠ x → a v = b v) → g a = g b) ∧
    (∀ st, (x, st) ∈ f.dom → ∀ a, InDom (domOut f.dom [x]) a → g a ∈ st) ∧
    ∀ obs, FullObs f.dom obs → f.getValue obs = .ok (if g (asg obs) = asg obs x then 1 else 0)

/-- **C17** as stated. `ofNat` is the state a numpy integer compares equal to. -/
def DetRoundTrip (vt : VType) (V S α : Type) [DecidableEq V] [DecidableEq S] [Inhabited S] [Inhabited α] [AddCommMonoid α]
    [One α] [LinearOrder α] (ofNat : Nat → S) : Prop :=
  ∀ (f : Factor (storeOf vt : StoreImpl V S α)) (x : V), f.WF → f.leftVars = [x] → Degenerate f x →
    ∃ d r, f.toDeterministic ofNat = .ok d ∧ d.toMultinomial (storeOf .numpy : StoreImpl V S α) = .ok r ∧
      r.dom = f.dom ∧ ∀ obs, FullObs f.dom obs → r.getValue obs = f.getValue obs

/-- Integers are not among the states: the table that comes back is identically zero.  (`ofNat` maps
integers to digits, the states of X are letters.) -/
theorem C17_violation :
    (do let f ← Factor.make (storeOf .numpy : StoreImpl Char Char ℤ) dXY [1, 0, 1, 0, 1, 0] (some ['X']) none
        let d ← f.toDeterministic (fun n => Char.ofNat (48 + n))
        let r ← d.toMultinomial (storeOf .numpy : StoreImpl Char Char ℤ)
        r.valuesList) = (.ok [0, 0, 0, 0, 0, 0] : Py _) := by
  decide +kernel

/-- **C17 is false** for states that are not 0..k-1. -/
theorem C17_false : ¬ DetRoundTrip .numpy Char Char ℤ (fun n => Char.ofNat (48 + n)) := by
  intro h
  have hf0 : Factor.make (storeOf .numpy : StoreImpl Char Char ℤ) dX [1, 0] (some ['X']) none
      = .ok ⟨(⟨dX, ⟨[2], [1, 0]⟩⟩ : NumpyStore Char Char ℤ), []⟩ := rfl
  obtain ⟨hf, hfd⟩ := wf_of_make .numpy dX_ok hf0
  obtain ⟨d, r, h1, h2, _, h4⟩ := h _ 'X' hf rfl ⟨fun _ => 'a', fun _ _ _ => rfl, by
      intro st hst a _
      have : ('X', st) ∈ dX := hst
      have : st = ['a', 'b'] := by simpa [dX] using this
      rw [this]; exact List.mem_cons_self, by
      intro obs ho
      obtain ⟨s, hs, hg⟩ := ho ('X', ['a', 'b']) (by exact List.mem_cons_self)
      have hI := storeOf_lawful (V := Char) (S := Char) (α := ℤ) .numpy
      have hasg : asg obs 'X' = s := by rw [asg, over_of_get? hg]
      rw [Factor.getValue_full hI hf ho]
      have hsem : ∀ a : Char → Char, Factor.sem (⟨(⟨dX, ⟨[2], [1, 0]⟩⟩ : NumpyStore Char Char ℤ), []⟩ :
          Factor (storeOf .numpy : StoreImpl Char Char ℤ)) a
          = NdArray.get ⟨[2], [1, 0]⟩ (coords dX a) := fun a => rfl
      rw [hsem]
      simp only [coords, dX, List.map_cons, List.map_nil, hasg]
      rcases (by simpa using hs : s = 'a' ∨ s = 'b') with rfl | rfl <;> decide⟩
  have e : (do let f ← (Except.ok ⟨(⟨dX, ⟨[2], [1, 0]⟩⟩ : NumpyStore Char Char ℤ), []⟩ :
                  Py (Factor (storeOf .numpy : StoreImpl Char Char ℤ)))
               let d ← f.toDeterministic (fun n => Char.ofNat (48 + n))
               let r ← d.toMultinomial (storeOf .numpy : StoreImpl Char Char ℤ)
               r.getValue [('X', 'a')]) = (.ok 0 : Py ℤ) := by decide +kernel
  rw [py_ok_bind, h1, py_ok_bind, h2, py_ok_bind, h4 [('X', 'a')] (by
    intro p hp
    have : p ∈ dX := hp
    have : p = ('X', ['a', 'b']) := by simpa [dX] using this
    subst this; exact ⟨'a', by decide, rfl⟩)] at e
  exact absurd e (by decide +kernel)

/-- `to_deterministic` of a table with zeros and ones gives the positions of the states; `arg` finds the one in a row of
zeros and ones. -/
theorem toDeterministicWith_ok [One α] {arg : List α → Nat}
    (harg : ∀ {st : List S} {y : S}, st.Nodup → y ∈ st → arg (st.map fun s => if y = s then (1 : α) else 0) = st.idxOf y)
    (vt : VType) (ofNat : Nat → S) {f : Factor (storeOf vt : StoreImpl V S α)} (hf : f.WF) {x : V} {st : List S} (hx : f.leftVars = [x])
    (hst : (x, st) ∈ f.dom) {g : (V → S) → S} (hg1 : ∀ a b : V → S, (∀ v ∈ f.vars, v ≠ x → a v = b v) → g a = g b)
    (hg2 : ∀ st, (x, st) ∈ f.dom → ∀ a, InDom (domOut f.dom [x]) a → g a ∈ st)
    (hg3 : ∀ obs, FullObs f.dom obs → f.getValue obs = .ok (if g (asg obs) = asg obs x then 1 else 0)) :
    ∃ d, f.toDeterministicWith arg ofNat = .ok d ∧ d.WF ∧ d.dom = f.dom ∧ d.leftVars = [x] ∧
      d.rightVars = (Dict.keys f.dom).filter (fun v => v ∉ [x]) ∧ d.rightDomain = domOut f.dom [x] ∧
      ∀ a, InDom (domOut f.dom [x]) a → d.fn a = ofNat (st.idxOf (g a)) := by
  have hI := storeOf_lawful (V := V) (S := S) (α := α) vt
  have hL := labelStoreOf_lawful (V := V) (S := S) .numpy
  have hd := hf.domOk hI
  have hxv : x ∈ f.vars := Dict.mem_keys_of_mem (p := (x, st)) hst
  -- the array of values
  let arr : NdArray α := ⟨cards f.dom, (assignmentSpace f.dom).map fun o => f.sem (asg o)⟩
  have harr : f.valuesArray [] = .ok arr := by
    have hmapM : (f.vars.mapM fun v => do
        let d ← Dict.get f.dom v
        return (v, d)) = (.ok f.dom : Py (Dom V S)) := by
      rw [Factor.vars, Dict.keys, List.mapM_map]
      conv_rhs => rw [← List.map_id f.dom]
      refine mapM_ok fun p hp => ?_
      simp [Dict.get, Dict.get?_of_mem hd.keys hp]
    rw [Factor.valuesArray, if_pos rfl, hmapM, py_ok_bind]
    have := Factor.valuesList_ok hI hf
    rw [Factor.valuesList, StoreImpl.valuesList] at this
    have h' : (assignmentSpace f.dom).mapM f.getValue = _ := this
    rw [h', py_ok_bind]; rfl
  have hget : ∀ a, InDom f.dom a → arr.get (coords f.dom a) = if g a = a x then 1 else 0 := by
    intro a ha
    rw [NdArray.get, List.getD_eq_getElem?_getD, List.getElem?_map, assignmentSpace_getElem? ha]
    simp only [Option.map_some, Option.getD_some]
    have hfull : FullObs f.dom (f.dom.map fun p => (p.1, a p.1)) :=
      fullObs_of_covers ha (covers_map f.dom a (fun v h => h))
    have hc : ∀ v ∈ f.vars, (asg (f.dom.map fun p => (p.1, a p.1)) : V → S) v = a v := fun v hv =>
      over_of_get? (covers_map f.dom a (e := f.dom) (fun v h => h) v hv)
    have e1 := Factor.getValue_full hI hf hfull
    rw [hg3 _ hfull] at e1
    rw [← Except.ok.inj e1, hc x hxv, hg1 _ a fun v hv _ => hc v hv]
  obtain ⟨w1, w2, w3⟩ := reduceAxes_dom (β := S) hd (arr := arr) rfl (fun l => ofNat (arg l)) (vars := [x])
    (by intro v hv; rw [List.mem_singleton] at hv; rw [hv]; exact hxv)
  simp only [List.map_cons, List.map_nil] at w1 w2 w3
  have hdet := domIn_singleton hd.keys hst
  -- the reduced array holds the positions
  have hred : ∀ a, InDom (domOut f.dom [x]) a →
      (arr.reduceAxes (fun l => ofNat (arg l)) [(Dict.keys f.dom).idxOf x]).get (coords (domOut f.dom [x]) a) =
        ofNat (st.idxOf (g a)) := by
    intro a ha
    rw [w3 a ha, hdet]
    have hga := hg2 st hst a ha
    have hvar : (variants [(x, st)] a).map (fun b => arr.get (coords f.dom b))
        = st.map fun s => if g a = s then (1 : α) else 0 := by
      rw [variants_singleton, List.map_map]
      refine List.map_congr_left fun s hs => ?_
      have hin : InDom f.dom (upd a x s) := by
        intro p hp
        by_cases e : p.1 = x
        · have a1 : Dict.get? f.dom p.1 = some p.2 := Dict.get?_of_mem hd.keys hp
          have a2 : Dict.get? f.dom x = some st := Dict.get?_of_mem hd.keys hst
          rw [e, a2] at a1
          rw [e, upd_same, ← Option.some.inj a1]; exact hs
        · rw [upd_ne _ _ e]
          exact ha p (List.mem_filter.2 ⟨hp, by simpa using e⟩)
      simp only [Function.comp]
      rw [hget _ hin, upd_same, hg1 (upd a x s) a fun v _ hv => upd_ne _ _ hv]
    rw [hvar, harg (hd.states _ hst) hga]
  -- construction of the deterministic factor
  let vals := arr.reduceAxes (fun l => ofNat (arg l)) [(Dict.keys f.dom).idxOf x]
  have hleft : ((Dict.keys f.dom).filter fun v => v ∉ (Dict.keys f.dom).filter fun v => v ∉ [x]) = [x] := by
    have e1 : Dict.keys (domIn f.dom [x]) = [x] := by rw [hdet]; rfl
    rw [keys_domIn] at e1
    refine (List.filter_congr fun v hv => ?_).trans e1
    simp [hv]
  have hrd := left_singleton_domain hd hleft
  obtain ⟨d, d1, hdwf, d3, d4, d5, d6⟩ := DetFactor.make_array_ok hL (arr := vals) (left := some [x]) (right := none)
    hd rfl (fun v hv => (List.mem_filter.1 hv).1) hleft (by rw [hrd]; exact w2) w1
  rw [hrd] at d6
  have hmake : f.toDeterministicWith arg ofNat = .ok d := by
    rw [Factor.toDeterministicWith, hx]
    simp only [harr, py_ok_bind]
    exact d1
  exact ⟨d, hmake, hdwf, d3, d5, d4, by rw [DetFactor.rightDomain, d3, d4]; exact hrd, fun a ha => (d6 a ha).trans (hred a ha)⟩

/-- **C17** (partial) the round trip holds when the states of X are the integers 0..k-1.  Missing: any
other state names, for which it is false. -/
theorem C17_roundtrip_partial [One α] [LinearOrder α] (h01 : (0 : α) < 1) (vt : VType) (ofNat : Nat → S)
    {f : Factor (storeOf vt : StoreImpl V S α)} (hf : f.WF) {x : V} {st : List S} (hx : f.leftVars = [x])
    (hst : (x, st) ∈ f.dom) (hdeg : Degenerate f x)
    (hstates : st = (List.range st.length).map ofNat) :
    ∃ d r, f.toDeterministic ofNat = .ok d ∧ d.toMultinomial (storeOf .numpy : StoreImpl V S α) = .ok r ∧
      r.dom = f.dom ∧ ∀ obs, FullObs f.dom obs → r.getValue obs = f.getValue obs := by
  have hL := labelStoreOf_lawful (V := V) (S := S) .numpy
  obtain ⟨g, hg1, hg2, hg3⟩ := hdeg
  have hxv : x ∈ f.vars := Dict.mem_keys_of_mem (p := (x, st)) hst
  obtain ⟨d, hmake, hdwf, d3, d5, _, hrd, hfn⟩ := toDeterministicWith_ok (arg := argmaxList) (fun h1 h2 => argmax_indicator h01 h1 h2) vt ofNat
    hf hx hst hg1 hg2 hg3
  obtain ⟨r, r1, _, r3, _, _, r6⟩ := C16_to_multinomial (α := α) .numpy hdwf d5
  refine ⟨d, r, hmake, r1, r3.trans d3, ?_⟩
  intro obs ho
  have hgx : Dict.get? obs x = some (asg obs x) := ho.covers x hxv
  obtain ⟨y, y1, _, y3⟩ := r6 obs (asg obs x) (by rw [d3]; exact ho) hgx
  have hfr : FullObs d.rightDomain obs := by
    rw [hrd]; exact ho.mono fun p hp => (List.mem_filter.1 hp).1
  rw [DetFactor.getValue_full hL hdwf hfr] at y1
  have hin : InDom (domOut f.dom [x]) (asg obs) := ho.inDom.sub fun p hp => (List.mem_filter.1 hp).1
  have : d.fn (asg obs) = g (asg obs) := by
    rw [hfn _ hin]
    have hga := hg2 st hst _ hin
    have hlt := List.idxOf_lt_length_of_mem hga
    have e1 : st[st.idxOf (g (asg obs))]? = some (g (asg obs)) := by
      rw [List.getElem?_eq_getElem hlt, List.getElem_idxOf]
    rw [hstates, List.getElem?_map, List.getElem?_range (by rw [← hstates]; exact hlt)] at e1
    rw [← hstates] at e1
    exact Option.some.inj e1
  rw [y3, hg3 obs ho, ← Except.ok.inj y1, this]

/-- The digits as states: `ofNat n` is the digit `n`. -/
example : ∃ f : Factor (storeOf .list : StoreImpl Char Char ℤ), f.WF ∧ f.leftVars = ['X'] ∧
    ('X', ['0', '1']) ∈ f.dom ∧ Degenerate f 'X' ∧
    ['0', '1'] = (List.range ['0', '1'].length).map (fun n => Char.ofNat (48 + n)) := by
  have hI := storeOf_lawful (V := Char) (S := Char) (α := ℤ) .list
  obtain ⟨f, _, h2, h3, h4, h5⟩ := Factor.make_ok hI (d := [('X', ['0', '1']), ('Y', ['c', 'd'])])
    (left := some ['X']) (right := none) (values := [1, 0, 0, 1]) ⟨by decide, by decide, by decide⟩ (by decide) rfl
  have hv : f.vars = ['X', 'Y'] := by rw [Factor.vars, h3]; rfl
  refine ⟨f, h2, by rw [Factor.leftVars, hv, h4]; decide, by rw [h3]; decide,
    ⟨fun a => if a 'Y' = 'c' then '0' else '1', ?_, ?_, ?_⟩, by decide⟩
  · intro a b h
    have := h 'Y' (by rw [hv]; decide) (by decide)
    simp only [this]
  · intro st hst a _
    rw [h3] at hst
    have : st = ['0', '1'] := by simpa using hst
    subst this
    by_cases e : a 'Y' = 'c' <;> simp [e]
  · intro obs ho
    rw [Factor.getValue_full hI h2 ho]
    rw [h3] at ho
    rw [h5 _ ho.inDom]
    obtain ⟨s, hs, hg⟩ := ho ('X', ['0', '1']) (by decide)
    obtain ⟨t, ht, hg'⟩ := ho ('Y', ['c', 'd']) (by decide)
    have e1 : asg obs 'X' = s := by rw [asg, over_of_get? hg]
    have e2 : asg obs 'Y' = t := by rw [asg, over_of_get? hg']
    simp only [coords, List.map_cons, List.map_nil, e1, e2]
    rcases (by simpa using hs : s = '0' ∨ s = '1') with rfl | rfl <;>
      rcases (by simpa using ht : t = 'c' ∨ t = 'd') with rfl | rfl <;> decide

/-! ### C18, deterministic factors -/

/-- **C18** `constant` of a structural equation: an equation without parents whose value is the given state. -/
theorem C18_constant_deterministic (vt : VType) {f : DetFactor (labelStoreOf vt : LabelStore V S)} (hf : f.WF)
    {x : V} {st : List S} (hx : f.leftVars = [x]) (hst : (x, st) ∈ f.dom) {s : S} (hs : s ∈ st) :
    ∃ r, f.constant s = .ok r ∧ r.WF ∧ r.dom = [(x, st)] ∧ r.leftVars = [x] ∧ r.rightVars = [] ∧
      ∀ obs, r.getValue obs = .ok s := by
  have hL := labelStoreOf_lawful (V := V) (S := S) vt
  have hld : f.leftDomain = [(x, st)] := by
    rw [DetFactor.leftDomain, hx]; exact domIn_singleton hf.dom.keys hst
  have hdv : DomOk [(x, st)] := ⟨by simp, by simpa using hf.dom.states _ hst, by simpa using hf.dom.nonempty _ hst⟩
  obtain ⟨r, h1, h2, h3, h4, h5, h6⟩ := DetFactor.make_ok hL (d := [(x, st)]) (values := [s]) (left := some [x]) (right := none)
    (r := []) (x := x) hdv (by simp [Factor.setVariables]) (by simp) (by simp) (by simp [cards])
  refine ⟨r, ?_, h2, h3, h5, h4, ?_⟩
  · simp only [DetFactor.constant, hld, hx, List.length_singleton, ne_eq, not_true, if_false, Dict.get, Dict.get?, if_true,
      py_ok_bind, hs]
    simpa using h1
  · intro obs
    have hrd : r.rightDomain = [] := by simp [DetFactor.rightDomain, h4]
    have ho : FullObs r.rightDomain obs := by rw [hrd]; intro p hp; simp at hp
    rw [DetFactor.getValue_full hL h2 ho, h6 _ (by intro p hp; simp at hp)]
    simp [cards, coords]

example (vt : VType) : ∃ f : DetFactor (labelStoreOf vt : LabelStore Char Char), f.WF ∧ f.leftVars = ['X'] ∧
    ('X', ['a', 'b']) ∈ f.dom := by
  obtain ⟨f, _, h2, h3, h4, _⟩ := ex_det vt
  exact ⟨f, h2, h3, by rw [h4]; decide⟩

/-! ### C19 -/

/-- **C19** as stated, for a store type: every state of U selects one response function and every response
function is selected by exactly one state. -/
def CanonicalEnumerates (vt : VType) (V S : Type) [DecidableEq V] [DecidableEq S] [Inhabited S] (d : Dom V S) (x u : V)
    (pa : List V) : Prop :=
  ∃ f st us pd, canonicalDeterministic (labelStoreOf vt : LabelStore V S) d u pa = .ok f ∧
    f.leftVars = [x] ∧ (x, st) ∈ f.dom ∧ Dict.get? d x = some st ∧ Dict.get? d u = some us ∧
    subdomain d pa = .ok pd ∧ f.rightDomain = (u, us) :: pd ∧
    (∀ s ∈ us, ∀ o ∈ assignmentSpace pd, ∃ y ∈ st, f.getValue ((u, s) :: o) = .ok y) ∧
    ∀ g : Obs V S → S, (∀ o ∈ assignmentSpace pd, g o ∈ st) →
      ∃! s, s ∈ us ∧ ∀ o ∈ assignmentSpace pd, f.getValue ((u, s) :: o) = .ok (g o)

/-- Two endogenous parents: the default store refuses the two-dimensional array. -/
theorem C19_violation_two_parents :
    (canonicalDeterministic (labelStoreOf .numpy : LabelStore Char Char)
      [('X', ['a', 'b']), ('Y', ['c', 'd']), ('Z', ['e', 'f']),
        ('U', ['0', '1', '2', '3', '4', '5', '6', '7', '8', '9', 'A', 'B', 'C', 'D', 'E', 'F'])] 'U' ['Y', 'Z']).map
      (fun _ => ()) = .error .valueError := by
  decide +kernel

/-- No endogenous parent: the default store refuses it too. -/
theorem C19_violation_no_parents :
    (canonicalDeterministic (labelStoreOf .numpy : LabelStore Char Char)
      [('X', ['a', 'b']), ('U', ['0', '1'])] 'U' []).map (fun _ => ()) = .error .valueError := by
  decide +kernel

/-- The factor that `canonical_deterministic` returns: its variables, and the function that each state of U selects. -/
theorem canonical_full (vt : VType) {d : Dom V S} (hd : DomOk d) {x u : V} {pa : List V}
    (hx : ((Dict.keys d).filter fun v => v ∉ pa ∧ v ≠ u) = [x]) (hu : u ∈ Dict.keys d) (hpa : ∀ v ∈ pa, v ∈ Dict.keys d)
    (hnd : pa.Nodup) (hup : u ∉ pa)
    (hcard : ∀ st us pd, Dict.get? d x = some st → Dict.get? d u = some us → subdomain d pa = .ok pd →
      us.length = st.length ^ (assignmentSpace pd).length)
    (hvt : vt ≠ .numpy ∨ pa.length = 1) : 
    ∃ f st us pd, canonicalDeterministic (labelStoreOf vt : LabelStore V S) d u pa = .ok f ∧ f.WF ∧ f.dom = (x, st) :: (u, us) :: pd ∧
    f.leftVars = [x] ∧ (x, st) ∈ f.dom ∧ Dict.get? d x = some st ∧ Dict.get? d u = some us ∧
    subdomain d pa = .ok pd ∧ f.rightDomain = (u, us) :: pd ∧
    (∀ s ∈ us, ∀ o ∈ assignmentSpace pd, ∃ y ∈ st, f.getValue ((u, s) :: o) = .ok y) ∧
    ∀ g : Obs V S → S, (∀ o ∈ assignmentSpace pd, g o ∈ st) →
      ∃! s, s ∈ us ∧ ∀ o ∈ assignmentSpace pd, f.getValue ((u, s) :: o) = .ok (g o) := by
  have hL := labelStoreOf_lawful (V := V) (S := S) vt
  have hxmem : x ∈ ((Dict.keys d).filter fun v => v ∉ pa ∧ v ≠ u) := by rw [hx]; simp
  obtain ⟨hxd, hxp⟩ := List.mem_filter.1 hxmem
  have hxp : x ∉ pa ∧ x ≠ u := by simpa using hxp
  obtain ⟨st, hst⟩ := Dict.mem_keys.1 hxd
  obtain ⟨us, hus⟩ := Dict.mem_keys.1 hu
  have gst : Dict.get? d x = some st := Dict.get?_of_mem hd.keys hst
  have gus : Dict.get? d u = some us := Dict.get?_of_mem hd.keys hus
  obtain ⟨pd, hpd, kpd, mpd⟩ := subdomain_ok hpa
  have hc := hcard st us pd gst gus hpd
  have hsub1 : subdomain d [u] = .ok [(u, us)] := by
    simp [subdomain, Dict.get, gus, List.mapM_cons, List.mapM_nil]
  have hdpd : DomOk pd := ⟨by rw [kpd]; exact hnd, fun p h => hd.states p (mpd p h), fun p h => hd.nonempty p (mpd p h)⟩
  have hnew : Dict.merge (Dict.merge [(x, st)] [(u, us)]) pd = (x, st) :: (u, us) :: pd := by
    rw [merge_disjoint (d1 := [(x, st)]), merge_disjoint]
    · rfl
    · intro v hv
      rw [kpd]
      rcases (by simpa [Dict.keys] using hv : v = x ∨ v = u) with rfl | rfl
      · exact hxp.1
      · exact hup
    · intro v hv
      rcases (by simpa [Dict.keys] using hv : v = x) with rfl
      simpa [Dict.keys] using hxp.2
  have hdn : DomOk ((x, st) :: (u, us) :: pd) := by
    refine ⟨?_, ?_, ?_⟩
    · simp only [Dict.keys_cons, kpd, List.nodup_cons, List.mem_cons, not_or]
      exact ⟨⟨hxp.2, hxp.1⟩, hup, hnd⟩
    · intro p hp
      rcases List.mem_cons.1 hp with rfl | hp
      · exact hd.states _ hst
      rcases List.mem_cons.1 hp with rfl | hp
      · exact hd.states _ hus
      · exact hdpd.states p hp
    · intro p hp
      rcases List.mem_cons.1 hp with rfl | hp
      · exact hd.nonempty _ hst
      rcases List.mem_cons.1 hp with rfl | hp
      · exact hd.nonempty _ hus
      · exact hdpd.nonempty p hp
  have hpane : ∀ v ∈ pa, v ≠ x := fun v hv e => hxp.1 (e ▸ hv)
  have hr : (Dict.keys ((x, st) :: (u, us) :: pd)).filter (fun v => v ∉ [x]) = u :: pa := by
    simp only [Dict.keys_cons, kpd]
    rw [List.filter_cons_of_neg (by simp), List.filter_cons_of_pos (by simpa using Ne.symm hxp.2)]
    rw [List.filter_eq_self.2]
    intro v hv; simpa using hpane v hv
  have hleft : ((Dict.keys ((x, st) :: (u, us) :: pd)).filter fun v => v ∉ u :: pa) = [x] := by
    simp only [Dict.keys_cons, kpd]
    rw [List.filter_cons_of_pos (by simp [hxp.1, hxp.2]), List.filter_cons_of_neg (by simp)]
    rw [List.filter_eq_nil_iff.2]
    intro v hv; simp [hv]
  have hrd : (((x, st) :: (u, us) :: pd : Dom V S).filter fun p => p.1 ∈ u :: pa) = (u, us) :: pd := by
    rw [List.filter_cons_of_neg (by simp [hxp.1, hxp.2]), List.filter_cons_of_pos (by simp)]
    rw [List.filter_eq_self.2]
    intro p hp
    have : p.1 ∈ pa := by rw [← kpd]; exact Dict.mem_keys_of_mem hp
    simp [this]
  -- the rows
  let m := (assignmentSpace pd).length
  let rows := product (List.replicate m st)
  have hm : m = (cards pd).prod := by
    simp [m, assignmentSpace, stateSpace, length_product, cards, Function.comp_def]
  have hrl : rows.length = us.length := by
    simp only [rows, length_product, List.map_replicate, List.prod_replicate, hc, m]
  have hrow : ∀ r ∈ rows, r.length = m := by
    intro r hr
    have := (mem_product.1 hr).length_eq
    simpa using this
  have hrowst : ∀ r ∈ rows, ∀ y ∈ r, y ∈ st := by
    intro r hr y hy
    have := mem_product.1 hr
    obtain ⟨i, hi, rfl⟩ := List.getElem_of_mem hy
    have := List.forall₂_iff_get.1 this
    have h2 := this.2 i hi (by simpa using (hrow r hr ▸ hi))
    simpa using h2
  have hflat : rows.flatten.length = (cards ((u, us) :: pd)).prod := by
    rw [List.length_flatten, List.map_congr_left hrow]
    simp [hrl, cards, hm]
  -- construction
  let arr : NdArray S := ⟨[rows.length, m], rows.flatten⟩
  have hmake : ∃ f, DetFactor.make (labelStoreOf vt : LabelStore V S) ((x, st) :: (u, us) :: pd) arr (some [x]) none = .ok f ∧
      f.WF ∧ f.dom = (x, st) :: (u, us) :: pd ∧ f.rightVars = u :: pa ∧ f.leftVars = [x] ∧
      ∀ a, InDom ((u, us) :: pd) a →
        f.fn a = rows.flatten.getD (ravel (cards ((u, us) :: pd)) (coords ((u, us) :: pd) a)) default := by
    have hdr : DomOk ((u, us) :: pd) := hdn.tail
    obtain ⟨sto, s1, s2, s3, s4⟩ := hL.ofArray_ok hdr hflat
    have s1' : (labelStoreOf vt : LabelStore V S).ofArray ((u, us) :: pd) arr = .ok sto := by
      rcases hvt with hvt | h1
      · cases vt with
        | numpy => exact absurd rfl hvt
        | numpy1d => exact s1
        | list => exact s1
        | treedict => exact s1
      · rw [← s1]
        congr 1
        have : [rows.length, m] = cards ((u, us) :: pd) := by
          have hl : pd.length = 1 := by rw [← h1, ← kpd]; simp [Dict.keys]
          obtain ⟨q, rfl⟩ := List.length_eq_one_iff.1 hl
          rw [hm, hrl]; simp [cards]
        show NdArray.mk _ _ = _
        rw [this]
    refine ⟨⟨(x, st) :: (u, us) :: pd, u :: pa, sto⟩, ?_, ⟨hdn, ?_, ⟨x, hleft⟩, s2, by rw [s3]; exact hrd.symm⟩, rfl, rfl, hleft, s4⟩
    · simp only [DetFactor.make, Factor.setVariables, py_ok_bind, hr, hleft, hrd]
      have : arr.shape.length ≠ 1 := by simp [arr]
      simp [this, s1']
    · intro v hv
      have h2 : v ∈ (Dict.keys ((x, st) :: (u, us) :: pd)).filter (fun v => v ∉ [x]) := by rw [hr]; exact hv
      exact (List.mem_filter.1 h2).1
  obtain ⟨f, f1, f2, f3, f4, f5, f6⟩ := hmake
  have hfrd : f.rightDomain = (u, us) :: pd := by rw [DetFactor.rightDomain, f3, f4]; exact hrd
  have hus_nd := hd.states _ hus
  -- value at a state of U and a parent configuration
  have hval : ∀ s ∈ us, ∀ (k : Nat) o, (assignmentSpace pd)[k]? = some o →
      ∃ row y, rows[us.idxOf s]? = some row ∧ row[k]? = some y ∧ y ∈ st ∧ f.getValue ((u, s) :: o) = .ok y := by
    intro s hs k o hk
    have hmem := List.mem_of_getElem? hk
    obtain ⟨a, ha, hca⟩ := exists_assignment_of_space hdpd.keys hmem
    have huk : u ∉ Dict.keys pd := by rw [kpd]; exact hup
    let b := upd a u s
    have hb : InDom ((u, us) :: pd) b := by
      intro p hp
      rcases List.mem_cons.1 hp with rfl | hp
      · simpa [b] using hs
      · have : p.1 ≠ u := fun e => huk (e ▸ Dict.mem_keys_of_mem hp)
        simp only [b, upd_ne _ _ this]; exact ha p hp
    have hcb : Covers ((u, us) :: pd) ((u, s) :: o) b := by
      intro v hv
      by_cases e : v = u
      · subst e; simp [Dict.get?, b]
      · have hv' : v ∈ Dict.keys pd := by simpa [e] using hv
        simp only [Dict.get?, Ne.symm e, if_false, b, upd_ne _ _ e]; exact hca v hv'
    have hgv : f.getValue ((u, s) :: o) = .ok (f.fn b) :=
      hL.getValue_ok f2.store (by rw [f2.storeDom, hfrd]; exact hb) (by rw [f2.storeDom, hfrd]; exact hcb)
    have hcoords : coords ((u, us) :: pd) b = us.idxOf s :: coords pd a := by
      simp only [coords, List.map_cons, b, upd_same]
      congr 1
      refine List.map_congr_left fun p hp => ?_
      have hne : p.1 ≠ u := fun e => huk (e ▸ Dict.mem_keys_of_mem hp)
      rw [upd_ne _ _ hne]
    have hkr : ravel (cards pd) (coords pd a) = k := by
      have e1 := assignmentSpace_getElem? ha
      rw [← space_eq_of_covers hdpd.keys hmem hca] at e1
      obtain ⟨i1, j1⟩ := List.getElem?_eq_some_iff.1 e1
      obtain ⟨i2, j2⟩ := List.getElem?_eq_some_iff.1 hk
      exact (List.Nodup.getElem_inj_iff (nodup_assignmentSpace hdpd)).1 (j1.trans j2.symm)
    have hkm : k < m := by
      obtain ⟨i2, _⟩ := List.getElem?_eq_some_iff.1 hk; exact i2
    have hil : us.idxOf s < rows.length := by rw [hrl]; exact List.idxOf_lt_length_of_mem hs
    have hravel : ravel (cards ((u, us) :: pd)) (us.idxOf s :: coords pd a) = m * us.idxOf s + k := by
      have : cards ((u, us) :: pd) = us.length :: cards pd := rfl
      rw [this, ravel_cons, hkr, hm]
    have hrm : rows[us.idxOf s] ∈ rows := List.getElem_mem hil
    have hkl : k < rows[us.idxOf s].length := by rw [hrow _ hrm]; exact hkm
    refine ⟨rows[us.idxOf s], rows[us.idxOf s][k], List.getElem?_eq_getElem hil, List.getElem?_eq_getElem hkl,
      hrowst _ hrm _ (List.getElem_mem hkl), ?_⟩
    rw [hgv, f6 b hb, hcoords, hravel, List.getD_eq_getElem?_getD, getElem?_flatten_const rows hrow _ _ hkm,
      List.getElem?_eq_getElem hil]
    simp [List.getElem?_eq_getElem hkl]
  refine ⟨f, st, us, pd, ?_, f2, f3, f5, by rw [f3]; simp, gst, gus, hpd, hfrd, ?_, ?_⟩
  · rw [canonicalDeterministic, hx]
    simp only [hpd, py_ok_bind, Dict.get, gst, hsub1, hnew]
    exact f1
  · intro s hs o ho
    obtain ⟨k, hk, rfl⟩ := List.getElem_of_mem ho
    obtain ⟨_, y, _, _, h3, h4⟩ := hval s hs k _ (List.getElem?_eq_getElem hk)
    exact ⟨y, h3, h4⟩
  · intro g hg
    have hrowmem : (assignmentSpace pd).map g ∈ rows := by
      rw [mem_product, List.forall₂_iff_get]
      refine ⟨by simp [m], fun i h1 h2 => ?_⟩
      simp only [List.get_eq_getElem, List.getElem_map, List.getElem_replicate]
      exact hg _ (List.getElem_mem _)
    obtain ⟨i, hi, hrow_i⟩ := List.getElem_of_mem hrowmem
    have hius : i < us.length := by rw [← hrl]; exact hi
    refine ⟨us[i], ⟨List.getElem_mem hius, ?_⟩, ?_⟩
    · intro o ho
      obtain ⟨k, hk, rfl⟩ := List.getElem_of_mem ho
      obtain ⟨row, y, e1, e2, _, e4⟩ := hval us[i] (List.getElem_mem hius) k _ (List.getElem?_eq_getElem hk)
      rw [hus_nd.idxOf_getElem, List.getElem?_eq_getElem hi, hrow_i] at e1
      rw [← Option.some.inj e1, List.getElem?_map, List.getElem?_eq_getElem hk] at e2
      rw [e4, ← Option.some.inj e2]
    · rintro s ⟨hs, hall⟩
      have hil := List.idxOf_lt_length_of_mem hs
      have hil' : us.idxOf s < rows.length := by rw [hrl]; exact hil
      have : rows[us.idxOf s] = rows[i] := by
        rw [hrow_i]
        refine List.ext_getElem (by rw [hrow _ (List.getElem_mem hil')]; simp [m]) ?_
        intro k h1 h2
        have hk : k < (assignmentSpace pd).length := by simpa using h2
        obtain ⟨row, y, e1, e2, _, e4⟩ := hval s hs k _ (List.getElem?_eq_getElem hk)
        rw [List.getElem?_eq_getElem hil'] at e1
        rw [hall _ (List.getElem_mem hk)] at e4
        rw [← Option.some.inj e1, List.getElem?_eq_getElem h1] at e2
        rw [Option.some.inj e2, ← Except.ok.inj e4]; simp
      have hnr : rows.Nodup := nodup_product (by
        intro l hl
        rw [List.eq_of_mem_replicate hl]; exact hd.states _ hst)
      have hij := (List.Nodup.getElem_inj_iff hnr).1 this
      have : us[us.idxOf s] = s := List.getElem_idxOf hil
      rw [← this]
      simp only [hij]

/-- **C19** (partial) for the list, flat numpy and tree stores whatever the number of endogenous parents, and for
the default store with exactly one.  `hcard`: U has as many states as there are response functions.  Missing: the
default store with no parent or with several, where the call raises. -/
theorem C19_canonical_partial (vt : VType) {d : Dom V S} (hd : DomOk d) {x u : V} {pa : List V}
    (hx : ((Dict.keys d).filter fun v => v ∉ pa ∧ v ≠ u) = [x]) (hu : u ∈ Dict.keys d) (hpa : ∀ v ∈ pa, v ∈ Dict.keys d)
    (hnd : pa.Nodup) (hup : u ∉ pa)
    (hcard : ∀ st us pd, Dict.get? d x = some st → Dict.get? d u = some us → subdomain d pa = .ok pd →
      us.length = st.length ^ (assignmentSpace pd).length)
    (hvt : vt ≠ .numpy ∨ pa.length = 1) : CanonicalEnumerates vt V S d x u pa := by
  obtain ⟨f, st, us, pd, h1, _, _, h2⟩ := canonical_full vt hd hx hu hpa hnd hup hcard hvt
  exact ⟨f, st, us, pd, h1, h2⟩

/-- X and Y binary, U with the four response functions. -/
def dCan : Dom Char Char := [('X', ['a', 'b']), ('Y', ['c', 'd']), ('U', ['0', '1', '2', '3'])]

example : CanonicalEnumerates .numpy Char Char dCan 'X' 'U' ['Y'] :=
  C19_canonical_partial .numpy ⟨by decide, by decide, by decide⟩ (by decide) (by decide) (by decide) (by decide) (by decide)
    (by
      intro st us pd h1 h2 h3
      have e1 : st = ['a', 'b'] := (Option.some.inj h1).symm
      have e2 : us = ['0', '1', '2', '3'] := (Option.some.inj h2).symm
      have e3 : pd = [('Y', ['c', 'd'])] := (Except.ok.inj h3).symm
      subst e1 e2 e3; decide)
    (Or.inr rfl)

end Verif.Props
