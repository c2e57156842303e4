import Verif.Model.ObjectsLemmas
import Verif.Store.HeapRun
import Mathlib.Data.Int.Basic

/-!
# C112: models made from other models

A program makes models, copies, intervenes and renames them, sets factors, and changes factors where they are.  The models
are python objects that refer to their factors (`ObjState`); `modelRun` is the same program on models that share nothing.
-/

set_option linter.unusedSectionVars false
set_option linter.unusedSimpArgs false

namespace Verif

variable {V S α : Type} [DecidableEq V] [DecidableEq S] [Inhabited α] [Zero α] [One α] [DecidableEq α]
  {I : StoreImpl V S α} {L : LabelStore V S}

namespace Props

/-! ### Specification -/

/-- The graphs given to the constructor have no repeated nodes. -/
def NodesOnce (ops : List (ModelOp I L)) : Prop := ∀ g fs endo cast check, .new g fs endo cast check ∈ ops → g.nodes.Nodup

/-- Whenever the program changes a factor where it is, no other entry of a model refers to that factor. -/
def WritesAlone : ObjState I L → List (ModelOp I L) → Prop
  | _, [] => True
  | st, op :: ops => (∀ i v u, op = .write i v u → st.Alone i v) ∧ ∀ st', st.step op = .ok st' → WritesAlone st' ops

/-- `store.set_value(x, obs)` of a factor with a table -/
def setCell (x : α) (obs : Obs V S) : AnyFactor I L → Py (AnyFactor I L)
  | .multi f => do
    let s ← I.setValue f.store x obs
    return .multi { f with store := s }
  | .det f => .ok (.det f)

/-- The factor of `v` in a model -/
def factorAt (ms : List (SCM I L)) (i : Nat) (v : V) : Option (AnyFactor I L) :=
  (ms[i]?).bind fun m => (Dict.get? m.base.factors v).bind id

/-! ### C112 -/

theorem runFrom_same (ops : List (ModelOp I L)) (hn : NodesOnce ops) {st : ObjState I L} (hst : ∀ m ∈ st.models, m.Fits st.heap) (hw : WritesAlone st ops) :
    SameRun ObjState.Shows (ops.foldlM ObjState.step st) (ops.foldlM modelStep st.values) := by
  induction ops generalizing st with
  | nil => exact ⟨hst, rfl⟩
  | cons op ops ih =>
    rw [List.foldlM_cons, List.foldlM_cons]
    have h1 := ObjState.step_same hst op (fun g fs e c k h => hn g fs e c k (h ▸ List.mem_cons_self)) hw.1
    cases hs : st.step op with
    | error e =>
      rw [hs] at h1
      cases hv : modelStep st.values op with
      | error e' => rw [hv] at h1; exact h1
      | ok ms => rw [hv] at h1; exact h1.elim
    | ok st' =>
      rw [hs] at h1
      cases hv : modelStep st.values op with
      | error e' => rw [hv] at h1; exact h1.elim
      | ok ms =>
        rw [hv] at h1
        obtain ⟨g1, rfl⟩ := h1
        exact ih (fun g fs e c k h => hn g fs e c k (List.mem_cons_of_mem _ h)) g1 (hw.2 st' hs)

/-- **C112** (partial) a program that changes factors only where no other model refers to them gives every model the contents it would have if models shared
nothing, and raises when that raises. -/
theorem C112_alone_partial (ops : List (ModelOp I L)) (hn : NodesOnce ops) (hw : WritesAlone ⟨[], []⟩ ops) :
    match ObjState.run ops, modelRun ops with
    | .ok st, .ok ms => st.values = ms
    | .error e, .error e' => e = e'
    | _, _ => False := by
  have h := runFrom_same ops hn (st := ⟨[], []⟩) (by simp) hw
  change SameRun ObjState.Shows (ObjState.run ops) (modelRun ops) at h
  cases hx : ObjState.run ops with
  | error e =>
    cases hy : modelRun ops with
    | error e' => rw [hx, hy] at h; exact h
    | ok ms => rw [hx, hy] at h; exact h.elim
  | ok st =>
    cases hy : modelRun ops with
    | error e' => rw [hx, hy] at h; exact h.elim
    | ok ms => rw [hx, hy] at h; exact h.2

theorem writesAlone_of_none (ops : List (ModelOp I L)) (h : ∀ i v u, .write i v u ∉ ops) (st : ObjState I L) : WritesAlone st ops := by
  induction ops generalizing st with
  | nil => trivial
  | cons op ops ih =>
    exact ⟨fun i v u he => absurd (he ▸ List.mem_cons_self) (h i v u), fun st' _ => ih (fun i v u hm => h i v u (List.mem_cons_of_mem _ hm)) st'⟩

/-- **C112** (partial) in particular every program that makes, copies, converts, intervenes, renames and sets factors, but does not change factors where
they are. -/
theorem C112_values_partial (ops : List (ModelOp I L)) (hn : NodesOnce ops) (h : ∀ i v u, .write i v u ∉ ops) :
    match ObjState.run ops, modelRun ops with
    | .ok st, .ok ms => st.values = ms
    | .error e, .error e' => e = e'
    | _, _ => False := C112_alone_partial ops hn (writesAlone_of_none ops h _)

theorem run_fits (ops : List (ModelOp I L)) (hn : NodesOnce ops) {st0 st : ObjState I L} (h0 : ∀ m ∈ st0.models, m.Fits st0.heap)
    (h : ops.foldlM ObjState.step st0 = .ok st) : ∀ m ∈ st.models, m.Fits st.heap := by
  induction ops generalizing st0 with
  | nil => injection h with h; subst h; exact h0
  | cons op ops ih =>
    rw [List.foldlM_cons] at h
    cases hs : st0.step op with
    | error e => rw [hs] at h; cases h
    | ok st1 =>
      rw [hs, py_ok_bind] at h
      exact ih (fun g fs e c k hm => hn g fs e c k (List.mem_cons_of_mem _ hm)) (ObjState.step_fits h0 (fun g fs e c k hm => hn g fs e c k (hm ▸ List.mem_cons_self)) hs) h

theorem factorAt_values (st : ObjState I L) (i : Nat) (v : V) :
    factorAt st.values i v = (st.models[i]?).bind fun m => (Dict.get? m.factors v).bind (slotVal st.heap) := by
  unfold factorAt ObjState.values
  rw [List.getElem?_map]
  cases st.models[i]? with
  | none => rfl
  | some m =>
    simp only [Option.map_some, Option.bind_some]
    have : Dict.get? (m.read st.heap).base.factors v = (Dict.get? m.factors v).map (slotVal st.heap) := by
      rw [ObjModel.read]
      rw [Dict.get?_map_snd m.factors (fun _ r => slotVal st.heap r) v]
    rw [this]
    cases Dict.get? m.factors v <;> rfl

/-- What a change of a factor does -/
theorem step_write {st : ObjState I L} (hst : ∀ m ∈ st.models, m.Fits st.heap) {i : Nat} {m : ObjModel V S} {v : V} {a : Nat} (hi : st.models[i]? = some m)
    (hv : Dict.get? m.factors v = some (some a)) (u : AnyFactor I L → Py (AnyFactor I L)) :
    ∃ f, st.heap[a]? = some f ∧ factorAt st.values i v = some f ∧
      st.step (.write i v u) = (do let f' ← u f; return ⟨st.heap.set a f', st.models⟩) := by
  have ha := (hst m (List.mem_of_getElem? hi)).known _ (Dict.mem_of_get? hv) a rfl
  refine ⟨st.heap[a], List.getElem?_eq_getElem ha, ?_, ?_⟩
  · rw [factorAt_values, hi, Option.bind_some, hv, Option.bind_some]
    exact List.getElem?_eq_getElem ha
  · simp only [ObjState.step, pick, hi, py_ok_bind, Dict.get, hv, List.getElem?_eq_getElem ha]

theorem write_ok {st st' : ObjState I L} {i : Nat} {v : V} {u : AnyFactor I L → Py (AnyFactor I L)} (hw : st.step (.write i v u) = .ok st') :
    ∃ m a, st.models[i]? = some m ∧ Dict.get? m.factors v = some (some a) := by
  simp only [ObjState.step] at hw
  unfold pick at hw
  cases hi : st.models[i]? with
  | none => rw [hi] at hw; cases hw
  | some m =>
    rw [hi] at hw
    simp only [py_ok_bind, Dict.get] at hw
    cases hv : Dict.get? m.factors v with
    | none => rw [hv] at hw; cases hw
    | some r =>
      rw [hv] at hw
      cases r with
      | none => cases hw
      | some a => exact ⟨m, a, rfl, hv⟩

/-- **C112** (partial) what a change of a factor does, in any program: every entry of a model that refers to the changed factor shows the change, every other
entry is as before. -/
theorem C112_write_partial (ops : List (ModelOp I L)) (hn : NodesOnce ops) {st st' : ObjState I L} (h : ObjState.run ops = .ok st) {i : Nat} {v : V}
    {u : AnyFactor I L → Py (AnyFactor I L)} (hw : st.step (.write i v u) = .ok st') :
    ∃ m a f f', st.models[i]? = some m ∧ Dict.get? m.factors v = some (some a) ∧ factorAt st.values i v = some f ∧ u f = .ok f' ∧
      ∀ j w, factorAt st'.values j w =
        if ∃ m', st.models[j]? = some m' ∧ Dict.get? m'.factors w = some (some a) then some f' else factorAt st.values j w := by
  have hst := run_fits ops hn (by simp) h
  obtain ⟨m, a, hi, hv⟩ := write_ok hw
  obtain ⟨f, f1, f2, f3⟩ := step_write hst hi hv u
  rw [f3] at hw
  cases hu : u f with
  | error e => rw [hu] at hw; cases hw
  | ok f' =>
    rw [hu] at hw
    injection hw with hw
    subst hw
    refine ⟨m, a, f, f', hi, hv, f2, hu, fun j w => ?_⟩
    have ha : a < st.heap.length := (List.getElem?_eq_some_iff.1 f1).1
    rw [factorAt_values, factorAt_values]
    simp only
    cases hj : st.models[j]? with
    | none => simp
    | some m' =>
      simp only [Option.bind_some]
      cases hw : Dict.get? m'.factors w with
      | none => simp [hw]
      | some r =>
        simp only [Option.bind_some]
        rw [ObjState.slotVal_set ha]
        by_cases hr : r = some a
        · rw [if_pos hr, if_pos ⟨m', rfl, by rw [hw, hr]⟩]
        · rw [if_neg hr, if_neg]
          rintro ⟨m'', e1, e2⟩
          injection e1 with e1; subst e1
          rw [hw] at e2; injection e2 with e2; exact hr e2

/-- Writing through the last model an entry that refers where an older entry does -/
theorem written_shared {st st1 : ObjState I L} (hst : ∀ m ∈ st.models, m.Fits st.heap) {m' : ObjModel V S} (h1 : st1.models = st.models ++ [m'])
    (hst1 : ∀ m ∈ st1.models, m.Fits st1.heap) (he : st.heap <+: st1.heap) {i : Nat} {m : ObjModel V S} {v : V} {a : Nat} (hi : st.models[i]? = some m)
    (hv : Dict.get? m.factors v = some (some a)) (hv' : Dict.get? m'.factors v = some (some a)) {f : AnyFactor I L} (hf : st.heap[a]? = some f)
    {u : AnyFactor I L → Py (AnyFactor I L)} {f' : AnyFactor I L} (hu : u f = .ok f') :
    ∃ st2, st1.step (.write st.models.length v u) = .ok st2 ∧ factorAt st2.values i v = some f' := by
  have ha : a < st.heap.length := (List.getElem?_eq_some_iff.1 hf).1
  have hl : st1.models[st.models.length]? = some m' := by rw [h1]; simp
  have hi1 : st1.models[i]? = some m := by rw [h1, List.getElem?_append_left (List.getElem?_eq_some_iff.1 hi).1]; exact hi
  obtain ⟨g, g1, _, g3⟩ := step_write hst1 hl hv' u
  have hg : g = f := by
    obtain ⟨l, hl⟩ := he
    rw [← hl, List.getElem?_append_left ha, hf] at g1
    injection g1 with g1; exact g1.symm
  subst hg
  rw [hu] at g3
  refine ⟨_, g3, ?_⟩
  rw [factorAt_values]
  simp only
  rw [hi1, Option.bind_some, hv, Option.bind_some, ObjState.slotVal_set (ha.trans_le he.length_le), if_pos rfl]

theorem step_made {st st1 : ObjState I L} {x : Py (FacHeap I L × ObjModel V S)} {i : Nat} {m : ObjModel V S} (hi : st.models[i]? = some m)
    (h : (do let m ← pick st.models i; let q ← (fun _ => x) m; return st.made q) = .ok st1) : ∃ q, x = .ok q ∧ st1 = st.made q := by
  unfold pick at h
  rw [hi] at h
  simp only [py_ok_bind] at h
  cases x with
  | error e => cases h
  | ok q => injection h with h; exact ⟨q, rfl, h.symm⟩

/-- **C112** the code shares the tables: a change of a table through a copy, or through the result of `to_multinomial`, is seen in the original. -/
theorem C112_copy (ops : List (ModelOp I L)) (hn : NodesOnce ops) {st st1 : ObjState I L} (h : ObjState.run ops = .ok st) {i : Nat} {op : ModelOp I L}
    (hop : op = .copy i ∨ op = .toMultinomial i) (h1 : st.step op = .ok st1) {v : V} {f : Factor I} (hf : factorAt st.values i v = some (.multi f))
    {u : AnyFactor I L → Py (AnyFactor I L)} {f' : AnyFactor I L} (hu : u (.multi f) = .ok f') :
    ∃ st2, st1.step (.write st.models.length v u) = .ok st2 ∧ factorAt st2.values i v = some f' := by
  have hst := run_fits ops hn (by simp) h
  have hst1 := ObjState.step_fits hst (op := op) (fun g fs e c k hm => by rcases hop with rfl | rfl <;> cases hm) h1
  rw [factorAt_values] at hf
  cases hi : st.models[i]? with
  | none => rw [hi] at hf; cases hf
  | some m =>
    rw [hi, Option.bind_some] at hf
    cases hr : Dict.get? m.factors v with
    | none => rw [hr] at hf; cases hf
    | some r =>
      rw [hr, Option.bind_some] at hf
      cases r with
      | none => cases hf
      | some a =>
        have hm := hst m (List.mem_of_getElem? hi)
        have key : ∃ q, st1 = st.made q ∧ st.heap <+: q.1 ∧ Dict.get? q.2.factors v = some (some a) := by
          rcases hop with rfl | rfl
          · obtain ⟨q, q1, q2⟩ := step_made hi (x := m.copy st.heap) (by
              simp only [ObjState.step, pick, hi, py_ok_bind] at h1
              simpa only [pick, hi, py_ok_bind] using h1)
            have hs := ObjModel.copy_same hm
            rw [q1] at hs
            cases hv : (m.read st.heap).copy with
            | error e => rw [hv] at hs; exact hs.elim
            | ok m' =>
              rw [hv] at hs
              obtain ⟨r', e1, _, e3⟩ := ObjModel.ofDict_entry hm.known hm.nodup q1 _ (Dict.mem_of_get? hr)
              exact ⟨q, q2, hs.1, by rw [e1, e3 f hf]⟩
          · obtain ⟨q, q1, q2⟩ := step_made hi (x := m.toMultinomial st.heap) (by
              simp only [ObjState.step, pick, hi, py_ok_bind] at h1
              simpa only [pick, hi, py_ok_bind] using h1)
            have hs := ObjModel.toMultinomial_same hm
            rw [q1] at hs
            cases hv : (m.read st.heap).toMultinomial with
            | error e => rw [hv] at hs; exact hs.elim
            | ok m' =>
              rw [hv] at hs
              obtain ⟨r', e1, _, e3⟩ := ObjModel.ofDict_entry hm.known hm.nodup q1 _ (Dict.mem_of_get? hr)
              exact ⟨q, q2, hs.1, by rw [e1, e3 f hf]⟩
        obtain ⟨q, rfl, q2, q3⟩ := key
        exact written_shared hst rfl hst1 q2 hi hr q3 hf hu

/-- The entries of an intervened model -/
theorem intervention_entry {h : FacHeap I L} {m : ObjModel V S} (hm : m.Fits h) {obs : Obs V S} {q : FacHeap I L × ObjModel V S}
    (hq : m.intervention h obs = .ok q) :
    (∀ v a, v ∉ Dict.keys obs → Dict.get? m.factors v = some (some a) → (∀ f, slotVal h (some a) = some (.multi f) → Dict.get? q.2.factors v = some (some a))) ∧
    ∀ v ∈ Dict.keys obs, ∀ a, Dict.get? q.2.factors v = some (some a) → h.length ≤ a := by
  unfold ObjModel.intervention at hq
  cases hc : ObjModel.collect (ObjModel.doEntry obs) h m.factors with
  | error e => rw [hc] at hq; cases hq
  | ok w =>
    rw [hc, py_ok_bind] at hq
    obtain ⟨w1, w2⟩ := ObjModel.collect_do_entry m.factors (List.prefix_refl _) hm.known hc
    have hk := ObjModel.keys_collect_do m.factors hc
    have hnd : (Dict.keys w.2).Nodup := by rw [hk]; exact hm.nodup
    have hen := ObjModel.ofDict_entry (fun p hp => (w2 p hp).1) hnd hq
    refine ⟨fun v a hv hva f hf => ?_, fun v hv a hva => ?_⟩
    · have hvk : v ∈ Dict.keys w.2 := by rw [hk]; exact Dict.mem_keys_of_mem (Dict.mem_of_get? hva)
      obtain ⟨r, hr⟩ := Dict.mem_keys.1 hvk
      have hml := (w2 _ hr).2.1 hv
      have : r = some a := by
        have h1 := Dict.get?_of_mem hm.nodup hml
        rw [hva] at h1; injection h1 with h1; exact h1.symm
      subst this
      obtain ⟨r', e1, _, e3⟩ := hen _ hr
      rw [e1, e3 f (by rw [(ObjModel.known_ext (hm.known _ hml) w1).2]; exact hf)]
    · by_cases hvk : v ∈ Dict.keys w.2
      · obtain ⟨r, hr⟩ := Dict.mem_keys.1 hvk
        obtain ⟨r', e1, e2, _⟩ := hen _ hr
        obtain ⟨b, b1, b2⟩ := (w2 _ hr).2.2 hv
        rw [hva] at e1
        injection e1 with e1
        rcases e2 with e2 | ⟨c, c1, c2⟩
        · simp only at b1 e2
          rw [← e1, b1] at e2
          injection e2 with e2; rw [e2]; exact b2
        · rw [← e1] at c1
          injection c1 with c1; rw [c1]; exact w1.length_le.trans c2
      · unfold ObjModel.ofDict at hq
        cases hi : ObjModel.init (S := S) (m.graph.removeIngoing (Dict.keys obs)) (some m.endogenous) m.cast true with
        | error e => rw [hi] at hq; cases hq
        | ok m0 =>
          rw [hi, py_ok_bind] at hq
          have := (ObjModel.fold_entry w.2 (fun p hp => (w2 p hp).1) hnd (List.prefix_refl _) hq).2.1 v hvk
          rw [hva] at this
          have hmem := Dict.mem_of_get? this.symm
          unfold ObjModel.init at hi
          split at hi
          · cases hi
          · injection hi with hi
            subst hi
            obtain ⟨x, _, hx⟩ := List.mem_map.1 hmem
            cases hx

/-- Writing through the last model an entry that refers to a new factor -/
theorem written_own {st : ObjState I L} (hst : ∀ m ∈ st.models, m.Fits st.heap) {q : FacHeap I L × ObjModel V S} (he : st.heap <+: q.1)
    (hst1 : ∀ m ∈ (st.made q).models, m.Fits (st.made q).heap) {v : V} {u : AnyFactor I L → Py (AnyFactor I L)} {st2 : ObjState I L}
    (hw : (st.made q).step (.write st.models.length v u) = .ok st2) (hown : ∀ a, Dict.get? q.2.factors v = some (some a) → st.heap.length ≤ a)
    {j : Nat} (hj : j < st.models.length) (w : V) : factorAt st2.values j w = factorAt st.values j w := by
  obtain ⟨m, a, hi, hv⟩ := write_ok hw
  have hm : m = q.2 := by
    have : (st.made q).models[st.models.length]? = some q.2 := by simp [ObjState.made]
    rw [this] at hi; injection hi with hi; exact hi.symm
  subst hm
  have ha := hown a hv
  obtain ⟨f, f1, _, f3⟩ := step_write hst1 hi hv u
  rw [f3] at hw
  cases hu : u f with
  | error e => rw [hu] at hw; cases hw
  | ok f' =>
    rw [hu] at hw
    injection hw with hw
    subst hw
    have hal : a < (st.made q).heap.length := (List.getElem?_eq_some_iff.1 f1).1
    rw [factorAt_values, factorAt_values]
    simp only
    have hmj : (st.made q).models[j]? = st.models[j]? := by
      show (st.models ++ [q.2])[j]? = _
      rw [List.getElem?_append_left hj]
    rw [hmj]
    cases hj' : st.models[j]? with
    | none => rfl
    | some m' =>
      simp only [Option.bind_some]
      cases hw' : Dict.get? m'.factors w with
      | none => rfl
      | some r =>
        simp only [Option.bind_some]
        have hk := (hst m' (List.mem_of_getElem? hj')).known _ (Dict.mem_of_get? hw')
        rw [ObjState.slotVal_set hal, if_neg (fun hc => by have := hk a hc; omega)]
        exact (ObjModel.known_ext hk he).2

/-- **C112** the code shares the tables of the other variables: a change of one of them through an intervened model is seen in the original. -/
theorem C112_intervention (ops : List (ModelOp I L)) (hn : NodesOnce ops) {st st1 : ObjState I L} (h : ObjState.run ops = .ok st) {i : Nat} {obs : Obs V S}
    (h1 : st.step (.intervention i obs) = .ok st1) {v : V} (hv : v ∉ Dict.keys obs) {f : Factor I} (hf : factorAt st.values i v = some (.multi f))
    {u : AnyFactor I L → Py (AnyFactor I L)} {f' : AnyFactor I L} (hu : u (.multi f) = .ok f') :
    ∃ st2, st1.step (.write st.models.length v u) = .ok st2 ∧ factorAt st2.values i v = some f' := by
  have hst := run_fits ops hn (by simp) h
  have hst1 := ObjState.step_fits hst (op := .intervention i obs) (fun g fs e c k hm => by cases hm) h1
  rw [factorAt_values] at hf
  cases hi : st.models[i]? with
  | none => rw [hi] at hf; cases hf
  | some m =>
    rw [hi, Option.bind_some] at hf
    cases hr : Dict.get? m.factors v with
    | none => rw [hr] at hf; cases hf
    | some r =>
      rw [hr, Option.bind_some] at hf
      cases r with
      | none => cases hf
      | some a =>
        have hm := hst m (List.mem_of_getElem? hi)
        obtain ⟨q, q1, rfl⟩ := step_made hi (x := m.intervention st.heap obs) (by
          simp only [ObjState.step, pick, hi, py_ok_bind] at h1
          simpa only [pick, hi, py_ok_bind] using h1)
        have hs := ObjModel.intervention_same hm obs
        rw [q1] at hs
        cases hx : (m.read st.heap).intervention obs with
        | error e => rw [hx] at hs; exact hs.elim
        | ok m' =>
          rw [hx] at hs
          exact written_shared hst rfl hst1 hs.1 hi hr ((intervention_entry hm q1).1 v a hv hr f hf) hf hu

/-- **C112** (partial) the tables of the intervened variables are new: changing one of them changes no model that was there before. -/
theorem C112_intervened_partial (ops : List (ModelOp I L)) (hn : NodesOnce ops) {st st1 st2 : ObjState I L} (h : ObjState.run ops = .ok st) {i : Nat} {obs : Obs V S}
    (h1 : st.step (.intervention i obs) = .ok st1) {v : V} (hv : v ∈ Dict.keys obs) {u : AnyFactor I L → Py (AnyFactor I L)}
    (h2 : st1.step (.write st.models.length v u) = .ok st2) {j : Nat} (hj : j < st.models.length) (w : V) :
    factorAt st2.values j w = factorAt st.values j w := by
  have hst := run_fits ops hn (by simp) h
  have hst1 := ObjState.step_fits hst (op := .intervention i obs) (fun g fs e c k hm => by cases hm) h1
  cases hi : st.models[i]? with
  | none => simp only [ObjState.step, pick, hi] at h1; cases h1
  | some m =>
    have hm := hst m (List.mem_of_getElem? hi)
    obtain ⟨q, q1, rfl⟩ := step_made hi (x := m.intervention st.heap obs) (by
      simp only [ObjState.step, pick, hi, py_ok_bind] at h1
      simpa only [pick, hi, py_ok_bind] using h1)
    have hs := ObjModel.intervention_same hm obs
    rw [q1] at hs
    cases hx : (m.read st.heap).intervention obs with
    | error e => rw [hx] at hs; exact hs.elim
    | ok m' =>
      rw [hx] at hs
      exact written_own hst hs.1 hst1 h2 ((intervention_entry hm q1).2 v hv) hj w

/-- **C112** (partial) all tables of a renamed model are new: changing one of them changes no model that was there before, and the other way round. -/
theorem C112_renamed_partial (ops : List (ModelOp I L)) (hn : NodesOnce ops) {st st1 st2 : ObjState I L} (h : ObjState.run ops = .ok st) {i : Nat} {mapping : List (V × V)}
    (h1 : st.step (.rename i mapping) = .ok st1) {k : Nat} {v : V} {u : AnyFactor I L → Py (AnyFactor I L)} (h2 : st1.step (.write k v u) = .ok st2) :
    (k = st.models.length → ∀ j < st.models.length, ∀ w, factorAt st2.values j w = factorAt st.values j w) ∧
    (k < st.models.length → ∀ w, factorAt st2.values st.models.length w = factorAt st1.values st.models.length w) := by
  have hst := run_fits ops hn (by simp) h
  have hst1 := ObjState.step_fits hst (op := .rename i mapping) (fun g fs e c k hm => by cases hm) h1
  cases hi : st.models[i]? with
  | none => simp only [ObjState.step, pick, hi] at h1; cases h1
  | some m =>
    have hm := hst m (List.mem_of_getElem? hi)
    obtain ⟨q, q1, rfl⟩ := step_made hi (x := m.renameVars st.heap mapping) (by
      simp only [ObjState.step, pick, hi, py_ok_bind] at h1
      simpa only [pick, hi, py_ok_bind] using h1)
    have hs := ObjModel.renameVars_same hm mapping
    rw [q1] at hs
    have hpre : st.heap <+: q.1 := by
      cases hx : (m.read st.heap).renameVars mapping with
      | error e => rw [hx] at hs; exact hs.elim
      | ok m' => rw [hx] at hs; exact hs.1
    have hfrom : q.2.From st.heap.length := by
      unfold ObjModel.renameVars at q1
      cases hc : ObjModel.collect (ObjModel.renameEntry mapping) st.heap m.factors with
      | error e => rw [hc] at q1; cases q1
      | ok w =>
        rw [hc, py_ok_bind] at q1
        obtain ⟨w1, w2⟩ := ObjModel.collect_rename m.factors (le_refl _) hc
        cases he : m.endogenous.mapM (Dict.get mapping) with
        | error e => rw [he] at q1; cases q1
        | ok endo =>
          rw [he, py_ok_bind] at q1
          unfold ObjModel.ofList at q1
          cases hin : ObjModel.init (S := S) (m.graph.relabel (Factor.renameOne mapping)) (some endo) m.cast true with
          | error e => rw [hin] at q1; cases q1
          | ok m0 =>
            rw [hin, py_ok_bind] at q1
            refine ObjModel.foldList_from w.2 (fun r hr => (w2 r hr).1) (fun r hr => (w2 r hr).2) w1.length_le ?_ q1
            unfold ObjModel.init at hin
            split at hin
            · cases hin
            · injection hin with hin
              subst hin
              intro p hp a ha
              obtain ⟨x, _, rfl⟩ := List.mem_map.1 hp
              cases ha
    constructor
    · rintro rfl j hj w
      exact written_own hst hpre hst1 h2 (fun a ha => hfrom _ (Dict.mem_of_get? ha) a rfl) hj w
    · intro hk w
      obtain ⟨m', a, hi', hv⟩ := write_ok h2
      have hmk : st.models[k]? = some m' := by
        have : (st.models ++ [q.2])[k]? = some m' := hi'
        rwa [List.getElem?_append_left hk] at this
      have ha : a < st.heap.length := (hst m' (List.mem_of_getElem? hmk)).known _ (Dict.mem_of_get? hv) a rfl
      obtain ⟨f, f1, _, f3⟩ := step_write hst1 hi' hv u
      rw [f3] at h2
      cases hu : u f with
      | error e => rw [hu] at h2; cases h2
      | ok f' =>
        rw [hu] at h2
        injection h2 with h2
        subst h2
        have hal : a < (st.made q).heap.length := (List.getElem?_eq_some_iff.1 f1).1
        have hlast : (st.made q).models[st.models.length]? = some q.2 := by simp [ObjState.made]
        rw [factorAt_values, factorAt_values]
        simp only [hlast, Option.bind_some]
        cases hw' : Dict.get? q.2.factors w with
        | none => rfl
        | some r =>
          simp only [Option.bind_some]
          rw [ObjState.slotVal_set hal, if_neg (fun hc => by have := hfrom _ (Dict.mem_of_get? hw') a hc; omega)]

/-! ### Example -/

/-- A model with one variable and one table -/
def oneModel : List (ModelOp (storeOf .list : StoreImpl Char Char Int) (labelStoreOf .list)) :=
  [.new ⟨['A'], []⟩ [('A', .multi ⟨⟨[('A', ['x', 'y'])], [1, 0]⟩, []⟩)] none true true]

/-- The cells of the table of a model after a program -/
def cellsOf (ops : List (ModelOp (storeOf .list : StoreImpl Char Char Int) (labelStoreOf .list))) (i : Nat) (v : Char) : Py (Option (List Int)) := do
  let st ← ObjState.run ops
  return (factorAt st.values i v).bind fun f => match f with
    | .multi f => some f.store.data
    | .det _ => none

/-- **C112** a table is written through a copy: the original changes; through a renamed model it does not. -/
theorem C112_example :
    cellsOf (oneModel ++ [.copy 0]) 0 'A' = .ok (some [1, 0]) ∧
    cellsOf (oneModel ++ [.copy 0, .write 1 'A' (setCell 7 [('A', 'y')])]) 0 'A' = .ok (some [1, 7]) ∧
    cellsOf (oneModel ++ [.rename 0 [('A', 'B')], .write 1 'B' (setCell 7 [('B', 'y')])]) 0 'A' = .ok (some [1, 0]) ∧
    cellsOf (oneModel ++ [.rename 0 [('A', 'B')], .write 1 'B' (setCell 7 [('B', 'y')])]) 1 'B' = .ok (some [1, 7]) := by
  refine ⟨by decide +kernel, by decide +kernel, by decide +kernel, by decide +kernel⟩

end Props
end Verif
