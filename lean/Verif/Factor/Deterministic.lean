import Verif.Factor.Api

/-!
# `factors/deterministic.py` (`DeterministicFactor`)

The values of a deterministic factor are states of its left variable, kept in a store over the
right variables.  Only construction and reading are implemented by the class (every other
operation raises `NotImplementedError`), so of the stores only these two operations are needed.
States are compared with `==`; the type numpy gives to the array of states is not modelled.
-/

set_option linter.unusedSectionVars false
set_option linter.unusedSimpArgs false

namespace Verif

variable {V S : Type} [DecidableEq V] [DecidableEq S]

/-- A store of states: construction from an array and reading. -/
structure LabelStore (V S : Type) where
  St : Type
  dom : St → Dom V S
  ofArray : Dom V S → NdArray S → Py St
  getValue : St → Obs V S → Py S
  /-- ghost -/
  WF : St → Prop
  sem : St → (V → S) → S

namespace LabelStore

/-- The laws used. -/
structure Lawful [Inhabited S] (L : LabelStore V S) : Prop where
  wf_dom : ∀ {s}, L.WF s → DomOk (L.dom s)
  sem_congr : ∀ {s}, L.WF s → ∀ {a b : V → S}, (∀ v ∈ Dict.keys (L.dom s), a v = b v) →
    L.sem s a = L.sem s b
  ofArray_ok : ∀ {d : Dom V S} {data : List S}, DomOk d → data.length = (cards d).prod →
    ∃ r, L.ofArray d ⟨cards d, data⟩ = .ok r ∧ L.WF r ∧ L.dom r = d ∧
      ∀ a, InDom d a → L.sem r a = data.getD (ravel (cards d) (coords d a)) default
  getValue_ok : ∀ {s}, L.WF s → ∀ {obs : Obs V S} {a : V → S}, InDom (L.dom s) a →
    Covers (L.dom s) obs a → L.getValue s obs = .ok (L.sem s a)

end LabelStore

/-- `store_dict[vtype]` for arrays of states. The numpy store compares the shape, the flat ones and
the tree ravel the array first (`numpystore.py:33-36`, `liststore.py:31-33`,
`numpystore.py:66-70`, `treesutil.py:25`); the tree does not check the number of values. -/
def labelStoreOf [Inhabited S] : VType → LabelStore V S
  | .numpy => ⟨NumpyStore V S S, NumpyStore.dom, NumpyStore.mk?, NumpyStore.getValue, NumpyStore.WF, NumpyStore.sem⟩
  | .numpy1d => ⟨FlatStore V S S, FlatStore.dom, fun d a => FlatStore.mk? d a.flat, FlatStore.getValue,
      FlatStore.WF, FlatStore.sem⟩
  | .list => ⟨FlatStore V S S, FlatStore.dom, fun d a => FlatStore.mk? d a.flat, FlatStore.getValue,
      FlatStore.WF, FlatStore.sem⟩
  | .treedict => ⟨TreeStore V S S, TreeStore.dom, fun d a => .ok (TreeStore.ofFlat d a.flat), TreeStore.getValue,
      TreeStore.WF, TreeStore.sem⟩

theorem labelStoreOf_lawful [Inhabited S] (vt : VType) : (labelStoreOf vt : LabelStore V S).Lawful := by
  have flat : ∀ {s : FlatStore V S S}, s.WF → DomOk s.dom := fun h => h.dom
  cases vt
  · exact ⟨fun h => h.dom, fun _ _ _ h => NumpyStore.sem_congr h,
      fun {d data} hd hl => ⟨⟨d, ⟨cards d, data⟩⟩, by simp [labelStoreOf, NumpyStore.mk?], ⟨hd, hl, rfl⟩, rfl, fun _ _ => rfl⟩,
      fun hs _ _ ha hc => NumpyStore.getValue_ok hs ha hc⟩
  · exact ⟨flat, fun _ _ _ h => FlatStore.sem_congr h,
      fun {d data} hd hl => ⟨⟨d, data⟩, by simp [labelStoreOf, FlatStore.mk?, hl], ⟨hd, hl⟩, rfl, fun _ _ => rfl⟩,
      fun hs _ _ ha hc => FlatStore.getValue_ok hs ha hc⟩
  · exact ⟨flat, fun _ _ _ h => FlatStore.sem_congr h,
      fun {d data} hd hl => ⟨⟨d, data⟩, by simp [labelStoreOf, FlatStore.mk?, hl], ⟨hd, hl⟩, rfl, fun _ _ => rfl⟩,
      fun hs _ _ ha hc => FlatStore.getValue_ok hs ha hc⟩
  · exact ⟨fun h => h.dom, fun hs _ _ h => TreeStore.sem_congr hs h,
      fun {d data} hd hl => ⟨TreeStore.ofFlat d data, rfl, (TreeStore.ofFlat_ok hd hl).1, rfl, (TreeStore.ofFlat_ok hd hl).2⟩,
      fun hs _ _ ha hc => TreeStore.getValue_ok hs ha hc⟩

/-- `DeterministicFactor`: `_domain`, `_right_vars`, `_store`. -/
structure DetFactor (L : LabelStore V S) where
  dom : Dom V S
  rightVars : List V
  store : L.St

namespace DetFactor

variable {L : LabelStore V S}

/-- `deterministic.py:27` `_variables` -/
def vars (f : DetFactor L) : List V := Dict.keys f.dom
/-- `factor.py:133-135` `left_vars` -/
def leftVars (f : DetFactor L) : List V := f.vars.filter fun v => v ∉ f.rightVars
/-- `factor.py:137-139` `right_domain` -/
def rightDomain (f : DetFactor L) : Dom V S := f.dom.filter fun p => p.1 ∈ f.rightVars
/-- `factor.py:141-143` `left_domain` -/
def leftDomain (f : DetFactor L) : Dom V S := f.dom.filter fun p => p.1 ∈ f.leftVars

/-- `deterministic.py:22-34` constructor. A one-dimensional array is reshaped to the cardinalities of the
right variables (`ValueError` when the sizes differ). -/
def make (L : LabelStore V S) (d : Dom V S) (values : NdArray S) (left right : Option (List V)) :
    Py (DetFactor L) := do
  let r ← Factor.setVariables (Dict.keys d) left right
  if ((Dict.keys d).filter fun v => v ∉ r).length ≠ 1 then throw .valueError
  let rd := d.filter fun p => p.1 ∈ r
  let values ← if values.shape.length = 1 then
      (if values.flat.length = (cards rd).prod then .ok ⟨cards rd, values.flat⟩ else .error .valueError)
    else .ok values
  let st ← L.ofArray rd values
  return ⟨d, r, st⟩

/-- `factor.py:87-88` `get_value` -/
def getValue (f : DetFactor L) (obs : Obs V S) : Py S := L.getValue f.store obs

/-- `deterministic.py:61-63` `eval` -/
def eval (f : DetFactor L) (obs : Obs V S) : Py Bool := do
  let ro ← f.rightVars.mapM fun v => do
    let s ← Dict.get obs v
    return (v, s)
  let y ← f.getValue ro
  match f.leftVars with
  | [] => throw .indexError
  | v :: _ => do
    let s ← Dict.get obs v
    return (y = s)

/-- `deterministic.py:65-69` `to_multinomial` -/
def toMultinomial {α : Type} [Inhabited α] [Zero α] [One α] (I : StoreImpl V S α) (f : DetFactor L) :
    Py (Factor I) := do
  let vals ← (assignmentSpace f.dom).mapM fun obs => do
    let b ← f.eval obs
    return if b then (1 : α) else 0
  Factor.make I f.dom vals none (some f.rightVars)

/-- `deterministic.py:74-80` `constant` (`builder(domain=…, values=[left_value])`) -/
def constant (f : DetFactor L) (s : S) : Py (DetFactor L) :=
  let newDom := f.leftDomain
  if newDom.length ≠ 1 then .error .valueError else
  match f.leftVars with
  | [] => .error .indexError
  | v :: _ => do
    let states ← Dict.get newDom v
    if s ∉ states then throw .valueError
    make L newDom ⟨[1], [s]⟩ (some f.leftVars) none

/-- What the constructor guarantees for a domain with distinct variables and states. -/
structure WF (f : DetFactor L) : Prop where
  dom : DomOk f.dom
  right : ∀ v ∈ f.rightVars, v ∈ f.vars
  left : ∃ x, f.leftVars = [x]
  store : L.WF f.store
  storeDom : L.dom f.store = f.rightDomain

/-- The state selected at a total assignment. -/
def fn (f : DetFactor L) (a : V → S) : S := L.sem f.store a

variable [Inhabited S] (hL : L.Lawful)
include hL

theorem fn_congr {f : DetFactor L} (hf : f.WF) {a b : V → S} (h : ∀ v ∈ f.rightVars, a v = b v) :
    f.fn a = f.fn b := by
  refine hL.sem_congr hf.store fun v hv => h v ?_
  rw [hf.storeDom, rightDomain, Dict.keys_filter_key f.dom (fun v => v ∈ f.rightVars)] at hv
  simpa using (List.mem_filter.1 hv).2

omit hL in
theorem rightDomain_ok {f : DetFactor L} (hf : f.WF) : DomOk f.rightDomain := hf.dom.filter (fun v => v ∈ f.rightVars)

theorem getValue_full {f : DetFactor L} (hf : f.WF) {obs : Obs V S} (ho : FullObs f.rightDomain obs) :
    f.getValue obs = .ok (f.fn (asg obs)) :=
  hL.getValue_ok hf.store (by rw [hf.storeDom]; exact ho.inDom) (by rw [hf.storeDom]; exact ho.covers)

theorem eval_ok {f : DetFactor L} (hf : f.WF) {obs : Obs V S} (ho : FullObs f.dom obs) {x : V}
    (hx : f.leftVars = [x]) : f.eval obs = .ok (f.fn (asg obs) = asg obs x) := by
  have hget : ∀ v ∈ f.vars, Dict.get? obs v = some (asg obs v) := fun v hv => ho.covers v hv
  have hro : (f.rightVars.mapM fun v => do
      let s ← Dict.get obs v
      return (v, s)) = (.ok (f.rightVars.map fun v => (v, asg obs v)) : Py _) := by
    refine mapM_ok fun v hv => ?_
    simp [Dict.get, hget v (hf.right v hv)]
  have hgr : ∀ v ∈ f.rightVars, Dict.get? (f.rightVars.map fun v => (v, asg obs v)) v = some (asg obs v) := by
    intro v hv
    have : ∀ l : List V, v ∈ l → Dict.get? (l.map fun v => (v, asg obs v)) v = some (asg obs v) := by
      intro l
      induction l with
      | nil => intro h; simp at h
      | cons w l ih =>
        intro h
        by_cases e : w = v
        · subst e; simp [Dict.get?]
        · simp [Dict.get?, e, ih ((List.mem_cons.1 h).resolve_left (Ne.symm e))]
    exact this _ hv
  have hfull : FullObs f.rightDomain (f.rightVars.map fun v => (v, asg obs v)) := by
    intro p hp
    obtain ⟨h1, h2⟩ := List.mem_filter.1 hp
    exact ⟨asg obs p.1, ho.inDom p h1, hgr p.1 (by simpa using h2)⟩
  have hxv : x ∈ f.vars := by
    have : x ∈ f.leftVars := by rw [hx]; simp
    exact (List.mem_filter.1 this).1
  have hval : f.getValue (f.rightVars.map fun v => (v, asg obs v)) = .ok (f.fn (asg obs)) := by
    rw [getValue_full hL hf hfull]
    congr 1
    refine fn_congr hL hf fun v hv => ?_
    rw [asg, over_of_get? (hgr v hv)]
  rw [eval, hro, py_ok_bind, hval, py_ok_bind, hx]
  simp [Dict.get, hget x hxv]

/-- Construction from flat values in row-major order of the right variables. -/
theorem make_ok {d : Dom V S} {values : List S} {left right : Option (List V)} {r : List V} {x : V} (hd : DomOk d)
    (hr : Factor.setVariables (Dict.keys d) left right = .ok r) (hrv : ∀ v ∈ r, v ∈ Dict.keys d)
    (hx : ((Dict.keys d).filter fun v => v ∉ r) = [x])
    (hl : values.length = (cards (d.filter fun p => p.1 ∈ r)).prod) :
    ∃ f, make L d ⟨[values.length], values⟩ left right = .ok f ∧ f.WF ∧ f.dom = d ∧ f.rightVars = r ∧
      f.leftVars = [x] ∧
      ∀ a, InDom (d.filter fun p => p.1 ∈ r) a →
        f.fn a = values.getD (ravel (cards (d.filter fun p => p.1 ∈ r)) (coords (d.filter fun p => p.1 ∈ r) a)) default := by
  have hdr : DomOk (d.filter fun p => p.1 ∈ r) := hd.filter (fun v => v ∈ r)
  obtain ⟨st, h1, h2, h3, h4⟩ := hL.ofArray_ok hdr hl
  refine ⟨⟨d, r, st⟩, ?_, ⟨hd, hrv, ⟨x, hx⟩, h2, h3⟩, rfl, rfl, hx, h4⟩
  simp only [make, hr, py_ok_bind, hx]
  simp [hl, h1]

/-- Construction from an array with one axis per right variable. -/
theorem make_array_ok {d : Dom V S} {arr : NdArray S} {left right : Option (List V)} {r : List V} {x : V} (hd : DomOk d)
    (hr : Factor.setVariables (Dict.keys d) left right = .ok r) (hrv : ∀ v ∈ r, v ∈ Dict.keys d)
    (hx : ((Dict.keys d).filter fun v => v ∉ r) = [x])
    (hs : arr.shape = cards (d.filter fun p => p.1 ∈ r)) (hw : arr.WF) :
    ∃ f, make L d arr left right = .ok f ∧ f.WF ∧ f.dom = d ∧ f.rightVars = r ∧ f.leftVars = [x] ∧
      ∀ a, InDom (d.filter fun p => p.1 ∈ r) a → f.fn a = arr.get (coords (d.filter fun p => p.1 ∈ r) a) := by
  have hdr : DomOk (d.filter fun p => p.1 ∈ r) := hd.filter (fun v => v ∈ r)
  obtain ⟨sh, fl⟩ := arr
  simp only at hs
  subst hs
  have hl : fl.length = (cards (d.filter fun p => p.1 ∈ r)).prod := hw
  obtain ⟨st, h1, h2, h3, h4⟩ := hL.ofArray_ok hdr hl
  refine ⟨⟨d, r, st⟩, ?_, ⟨hd, hrv, ⟨x, hx⟩, h2, h3⟩, rfl, rfl, hx, h4⟩
  simp only [make, hr, py_ok_bind, hx]
  by_cases e : (cards (d.filter fun p => p.1 ∈ r)).length = 1 <;> simp [e, hl, h1]

end DetFactor
end Verif
