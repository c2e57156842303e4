import Verif.Model.MixedQuery
import Verif.Props.EMFixed
import Verif.Net.CfProb

/-!
# Factors that are kept in different stores (C113)
-/

set_option linter.unusedSectionVars false
set_option linter.unusedSimpArgs false

namespace Verif.Props
open Verif

section
variable {V S K : Type} [DecidableEq V] [DecidableEq S] [Nonempty S] [Field K] [LinearOrder K]

/-- Two factors that are kept in different stores cannot be combined, whatever they are. -/
theorem C113_refused {f g : VFactor V S K} (h : f.vtype ≠ g.vtype) :
    f.multiply g = .error .valueError ∧ f.addition g = .error .valueError ∧ f.subtract g = .error .valueError ∧ f.divide g = .error .valueError :=
  ⟨VFactor.binary_differ _ h, VFactor.binary_differ _ h, VFactor.binary_differ _ h, VFactor.binary_differ _ h⟩

/-- Two factors of the same store are combined as described there, and the result is kept in it. -/
theorem C113_combined (vt : VType) (f g : Factor (storeOf vt : StoreImpl V S (Fl K))) :
    VFactor.multiply (inStore vt f) (inStore vt g) = (f.multiply g).map (inStore vt) ∧ VFactor.addition (inStore vt f) (inStore vt g) = (f.addition g).map (inStore vt) ∧
      VFactor.subtract (inStore vt f) (inStore vt g) = (f.subtract g).map (inStore vt) ∧ VFactor.divide (inStore vt f) (inStore vt g) = (f.divide g).map (inStore vt) :=
  ⟨VFactor.binary_same _ f g, VFactor.binary_same _ f g, VFactor.binary_same _ f g, VFactor.binary_same _ f g⟩

/-- A model of one store answers every query, also one that is refused, as described for that store, whatever object is asked. -/
theorem C113_one_store (vt : VType) (ch : Choices V) (o : VEObj (Factor (storeOf vt : StoreImpl V S (Fl K))) (storeOf vt : StoreImpl V S (Fl K))) (T : List V) (ev : Obs V S) :
    Mixed.query ch (modelIn vt o.model) T ev = (o.query ch T (some ev)).2.map (inStore vt) := query_in ch o.model T ev o rfl

/-- If a query is answered, then all tables that matter for it are kept in the store of the answer. -/
theorem C113_answered {ch : Choices V} (hch : ch.Ok) {m : DagModel (VFactor V S K) V S} {B : BN V S K} (hm : MixedTables m B) (hB : B.Valid) (hn : B.Normalised)
    {T : List V} {ev : Obs V S} (hq : GoodQuery B T ev) {r : VFactor V S K} (h : Mixed.query ch m T ev = .ok r) {v : V} {f : VFactor V S K}
    (hv : m.graph.Relevant T (Dict.keys ev) v) (hf : Dict.get? m.factors v = some (some f)) : f.vtype = r.vtype :=
  mixed_vtype hch hm hB hn hq h hv hf

/-- If the tables that matter for a query are kept in one store, then the answer is the posterior, whatever the stores of the others. -/
theorem C113_answers_partial {ch : Choices V} (hch : ch.Ok) {m : DagModel (VFactor V S K) V S} {B : BN V S K} (hm : MixedTables m B) (hB : B.Valid) (hn : B.Normalised)
    {T : List V} {ev : Obs V S} (hq : GoodQuery B T ev) (hp : B.marg (Dict.keys ev) (asg ev) ≠ 0) {vt : VType}
    (hvt : ∀ v f, m.graph.Relevant T (Dict.keys ev) v → Dict.get? m.factors v = some (some f) → f.vtype = vt) :
    ∃ r : Factor (storeOf vt : StoreImpl V S (Fl K)), Mixed.query ch m T ev = .ok (inStore vt r) ∧ Factor.Rep B.states r (B.post T ev) ∧
      (∀ v, v ∈ r.vars ↔ v ∈ T) ∧ ∀ v, v ∈ r.leftVars ↔ v ∈ T := mixed_answers hch hm hB hn hq hp hvt

/-- A query is answered exactly when the tables that matter for it are kept in one store. -/
theorem C113_exact {ch : Choices V} (hch : ch.Ok) {m : DagModel (VFactor V S K) V S} {B : BN V S K} (hm : MixedTables m B) (hB : B.Valid) (hn : B.Normalised)
    {T : List V} {ev : Obs V S} (hq : GoodQuery B T ev) (hp : B.marg (Dict.keys ev) (asg ev) ≠ 0) :
    (∃ r, Mixed.query ch m T ev = .ok r) ↔
      ∃ vt, ∀ v f, m.graph.Relevant T (Dict.keys ev) v → Dict.get? m.factors v = some (some f) → f.vtype = vt := by
  constructor
  · rintro ⟨r, h⟩
    exact ⟨r.vtype, fun v f hv hf => C113_answered hch hm hB hn hq h hv hf⟩
  · rintro ⟨vt, h⟩
    obtain ⟨r, h, _⟩ := C113_answers_partial hch hm hB hn hq hp h
    exact ⟨_, h⟩

/-- In the default store, a step of expectation maximisation is the one described for that store. -/
theorem C113_em_partial (vt : VType) (ch : Choices V) (s : EM (storeOf vt : StoreImpl V S (Fl K))) :
    VEM.update vt ch (emIn vt s) = (EM.update ch s).map (emIn vt) := update_in ch s

/-- The counts are made in the default store, whatever the model. -/
theorem zeroCounts_dflt {vt : VType} (dflt : VType) {m : DagModel (Factor (storeOf vt : StoreImpl V S (Fl K))) V S} {B : BN V S K} (hB : B.Valid) (hm : EM.PriorOk m B)
    {v : V} (hv : v ∈ B.nodes) : ∃ r : Factor (storeOf dflt : StoreImpl V S (Fl K)), VEM.zeroCounts dflt (modelIn vt m) v = .ok (inStore dflt r) := by
  have hm' : EM.PriorOk (I := (storeOf dflt : StoreImpl V S (Fl K))) ⟨m.graph, [], m.domains, m.check⟩ B := ⟨hm.nodes, hm.parents, hm.domains⟩
  obtain ⟨r, h, _⟩ := EM.zeroCounts_ok hB hm' hv
  refine ⟨r, ?_⟩
  have e : VEM.zeroCounts dflt (modelIn vt m) v =
      VEM.zeroCounts dflt (modelIn dflt (⟨m.graph, [], m.domains, m.check⟩ : DagModel (Factor (storeOf dflt : StoreImpl V S (Fl K))) V S)) v := rfl
  rw [e, zeroCounts_in, h]
  rfl

/-- A model that is kept in another store than the default one cannot be learnt: as soon as there is an observation for the first variable that is
treated, the step raises `ValueError`. -/
theorem C113_em_refused {vt dflt : VType} (hd : vt ≠ dflt) {ch : Choices V} (hch : ch.Ok) {s : EM (storeOf vt : StoreImpl V S (Fl K))} {B : BN V S K}
    (hr : Represents s.model B) (hB : B.Valid) (hn : B.Normalised) (hp : EM.PriorOk s.prior B) (ht : ∀ v ∈ s.trainable, v ∈ B.nodes)
    {v : V} {vs : List V} (hv : EM.todo ch s = v :: vs) {o : Obs V S × ℕ} {os : List (Obs V S × ℕ)} (hoc : obsCounts s.model.graph s.data v = .ok (o :: os))
    (ho : EM.ObsOk B v o.1) : VEM.update dflt ch (emIn vt s) = .error .valueError := by
  classical
  have hvt : v ∈ s.trainable := by
    have : v ∈ EM.todo ch s := by rw [hv]; simp
    exact (List.mem_filter.1 (((hch.setOrd _).2 v).1 this)).1
  have hvB := ht v hvt
  have hz : ∀ w, ∃ r : Factor (storeOf dflt : StoreImpl V S (Fl K)), w ∈ B.nodes → VEM.zeroCounts dflt (modelIn vt s.prior) w = .ok (inStore dflt r) := by
    intro w
    by_cases hw : w ∈ B.nodes
    · obtain ⟨r, h⟩ := zeroCounts_dflt dflt hB hp hw
      exact ⟨r, fun _ => h⟩
    · obtain ⟨r, h⟩ := zeroCounts_dflt dflt hB hp hvB
      exact ⟨r, fun h => absurd h hw⟩
  choose Z hZ using hz
  have e0 : (emIn vt s).trainable.mapM (fun v => do
      let f ← VEM.zeroCounts dflt (emIn vt s).prior v
      return (v, f)) = .ok (s.trainable.map fun v => (v, inStore dflt (Z v))) := by
    refine mapM_ok fun w hw => ?_
    show (VEM.zeroCounts dflt (modelIn vt s.prior) w >>= _) = _
    rw [hZ w (ht w hw)]
    rfl
  obtain ⟨pa, p1, p2, p3⟩ := EM.parents_ok hB hp.nodes hp.parents hvB
  have hmT : ∀ w, w ∈ (v :: pa).filter (fun x => x ∉ Dict.keys o.1) ↔ w ∈ B.hidden v o.1 := by
    intro w
    rw [BN.hidden, List.mem_filter, List.mem_filter]
    simp only [List.mem_cons, p3]
  have hq : GoodQuery B ((v :: pa).filter fun x => x ∉ Dict.keys o.1) o.1 := by
    refine ⟨fun hc => ?_, p2.filter _, fun t ht => ?_, ho.evidence, fun t ht => by simpa using (List.mem_filter.1 ht).2⟩
    · obtain ⟨w, hw⟩ := List.exists_mem_of_ne_nil _ ho.hidden
      have := (hmT w).2 hw
      rw [hc] at this
      cases this
    · rcases List.mem_cons.1 (List.mem_filter.1 ht).1 with rfl | h
      · exact hvB
      · exact hB.parents v hvB t ((p3 t).1 h)
  obtain ⟨r, r1, _, r3, _⟩ := query_rep hch (VEObj.new s.model) hr hB hn hq ho.possible
  obtain ⟨e, e1, _⟩ := Factor.Rep.timesScalar (storeOf_lawful (V := V) (S := S) (α := Fl K) vt) r3 (o.2 : K)
  have hstep : VEM.addCounts ch (modelIn vt s.model) v pa (inStore dflt (Z v)) o = .error .valueError := by
    rw [VEM.addCounts, query_in ch s.model _ o.1 (VEObj.new s.model) rfl, r1]
    show ((inStore vt r).timesScalar _ >>= _) = _
    rw [VFactor.timesScalar_same, e1]
    exact (C113_refused (Ne.symm hd)).2.1
  have hget : Dict.get (s.trainable.map fun v => (v, inStore dflt (Z v))) v = .ok (inStore dflt (Z v)) := by
    rw [Dict.get, Dict.get?_map, if_pos hvt]
  have hone : VEM.countOne ch (emIn vt s) (s.trainable.map fun v => (v, inStore dflt (Z v))) [] v = .error .valueError := by
    rw [VEM.countOne]
    show (obsCounts s.model.graph s.data v >>= _) = _
    rw [hoc, py_ok_bind]
    show (s.prior.getParents [v] >>= _) = _
    rw [p1, py_ok_bind, hget, py_ok_bind, List.foldlM_cons]
    show ((VEM.addCounts ch (modelIn vt s.model) v pa (inStore dflt (Z v)) o >>= _) >>= _) = _
    rw [hstep]
    rfl
  have hexp : VEM.expectation dflt ch (emIn vt s) = .error .valueError := by
    rw [VEM.expectation, e0, py_ok_bind]
    show (EM.todo ch s).foldlM _ _ = _
    rw [hv, List.foldlM_cons, hone]
    rfl
  rw [VEM.update, hexp]
  rfl

end

/-! ### Examples -/

/-- Two nodes: the table of `U` in one store, that of `X` in another -/
def mixOf (v1 v2 : VType) : Py (DagModel (VFactor Char Char ℚ) Char Char) := do
  let m1 ← netOf v1 gUX rowsEq
  let m2 ← netOf v2 gUX rowsEq
  return ⟨gUX, (modelIn v1 m1).factors.filter (fun p => p.1 = 'U') ++ (modelIn v2 m2).factors.filter (fun p => p.1 = 'X'), m1.domains, m1.check⟩

/-- The store of an answer and its cells -/
def mixAsk (v1 v2 : VType) (T : List Char) (ev : Obs Char Char) : Py (VType × List (Fl ℚ)) := do
  let m ← mixOf v1 v2
  let r ← Mixed.query chEx m T ev
  let l ← r.fac.valuesList
  return (r.vtype, l)

/-- The node without children is not looked at when its parent is asked for; otherwise the tables are combined. -/
theorem C113_asked :
    mixAsk .numpy .list ['U'] [] = .ok (.numpy, [q (1/2), q (1/2)]) ∧ mixAsk .numpy .list ['X'] [] = .error .valueError ∧
      mixAsk .treedict .numpy1d ['U'] [('X', 'a')] = .error .valueError ∧ mixAsk .list .list ['U'] [('X', 'a')] = .ok (.list, [q 1, q 0]) := by
  decide +kernel

/-- A step of expectation maximisation over a model in the store `vt`, and the table of `U` -/
def mixStep (dflt vt : VType) : Py (VType × List (Fl ℚ)) := do
  let m ← netOf vt gUX rowsEq
  let s ← VEM.update dflt chEx (emIn vt ⟨m, m, ['U'], [], frOf ['a', 'a', 'b']⟩)
  match ← Dict.get s.model.factors 'U' with
  | some f => do
    let l ← f.fac.valuesList
    return (f.vtype, l)
  | none => throw .attributeError

/-- With lists a model is learnt when lists are the default store, and otherwise refused. -/
theorem C113_learnt : mixStep .list .list = .ok (.list, [q (2/3), q (1/3)]) ∧ mixStep .numpy .list = .error .valueError ∧
    mixStep .numpy .numpy = .ok (.numpy, [q (2/3), q (1/3)]) ∧ mixStep .list .numpy = .error .valueError := by
  decide +kernel

/-- The hypotheses of `C113_exact` are met by a model of two nodes in different stores: `U` alone is answered, `X` is not. -/
theorem C113_example {v1 v2 : VType} (h12 : v1 ≠ v2) : ∃ (m : DagModel (VFactor Char Char ℚ) Char Char) (B : BN Char Char ℚ), MixedTables m B ∧ B.Valid ∧ B.Normalised ∧
    GoodQuery B ['U'] [] ∧ GoodQuery B ['X'] [] ∧ (∃ r, Mixed.query chEx m ['U'] [] = .ok (inStore v1 r) ∧ Factor.Rep B.states r (B.post ['U'] [])) ∧
    ∀ r, Mixed.query chEx m ['X'] [] ≠ .ok r := by
  obtain ⟨m, h1, h2, h3, h4, h5, h6⟩ := netOf_spec (vt := v1) (g := gUX) (rows := rowsEq) (by decide) (by cases v1 <;> decide +kernel)
  set B : BN Char Char ℚ := BN.ofModel (IQ v1) m with hB
  have hnodes : B.nodes = ['U', 'X'] := by rw [← h3.nodes, h2]; rfl
  obtain ⟨fU, gU, u1, u2, u3⟩ := h3.table 'U' (by rw [hnodes]; simp)
  obtain ⟨fX, gX, x1, x2, x3⟩ := h3.table 'X' (by rw [hnodes]; simp)
  obtain ⟨g, hg⟩ := Factor.restore (storeOf_lawful v1) (storeOf_lawful (V := Char) (S := Char) (α := Fl ℚ) v2) x3
  set mm : DagModel (VFactor Char Char ℚ) Char Char := ⟨gUX, [('U', some (inStore v1 gU)), ('X', some (inStore v2 g))], m.domains, m.check⟩ with hmm
  have ht : MixedTables mm B := by
    refine ⟨(h2 ▸ h3.wf : gUX.WF), by rw [hnodes]; rfl, fun v hv p => by rw [h3.parents v hv p, h2], rfl, fun v hv => ?_⟩
    rw [hnodes] at hv
    rcases List.mem_cons.1 hv with rfl | hv
    · exact ⟨_, rfl, u3⟩
    · rw [List.mem_singleton.1 hv]
      exact ⟨_, rfl, hg⟩
  have q1 : ∀ t ∈ ['U', 'X'], GoodQuery B [t] [] := fun t ht => ⟨by simp, by simp, by simpa [hnodes] using ht, ⟨List.nodup_nil, fun v hv => (by cases hv), fun v s hv => (by cases hv)⟩, fun t _ hc => by cases hc⟩
  have hp : B.marg (Dict.keys ([] : Obs Char Char)) (asg []) ≠ 0 := by
    have := BN.marg_nil h4 h5 (asg [])
    rw [Dict.keys_nil, this]
    exact one_ne_zero
  refine ⟨mm, B, ht, h4, h5, q1 'U' (by simp), q1 'X' (by simp), ?_, ?_⟩
  · obtain ⟨r, r1, r2, _⟩ := C113_answers_partial chEx_ok ht h4 h5 (q1 'U' (by simp)) hp (vt := v1) (by
      intro v f hv hf
      have hn : v = 'U' := by
        obtain ⟨⟨s, hs, hr⟩, _⟩ := hv
        have hs' : s = 'U' := by simpa using hs
        subst hs'
        rcases Relation.ReflTransGen.cases_tail hr with h | ⟨c, _, h⟩
        · exact h.symm
        · have : (c, 'U') ∈ gUX.edges := h
          simp [gUX] at this
      subst hn
      injection hf with hf
      injection hf with hf
      rw [← hf]; rfl)
    exact ⟨r, r1, r2⟩
  · intro r hr
    have a1 := C113_answered chEx_ok ht h4 h5 (q1 'X' (by simp)) hr (v := 'X') (f := inStore v2 g) (DiGraph.Relevant.target (by simp)) rfl
    have hrel : mm.graph.Relevant ['X'] [] 'U' := (DiGraph.Relevant.target (g := mm.graph) (T := ['X']) (E := []) (t := 'X') (by simp)).parent
      (show ('U', 'X') ∈ gUX.edges by simp [gUX]) (by simp)
    have a2 := C113_answered chEx_ok ht h4 h5 (q1 'X' (by simp)) hr (v := 'U') (f := inStore v1 gU) hrel rfl
    exact h12 (a2.trans a1.symm)

end Verif.Props
