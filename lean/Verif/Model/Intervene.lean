import Verif.Model.SCMLemmas

/-!
# Repeated interventions, conversions and copies: helper lemmas
-/

set_option linter.unusedSectionVars false
set_option linter.unusedSimpArgs false

namespace Verif

variable {V S K : Type} [DecidableEq V] [DecidableEq S] [Inhabited S] [Field K] [LinearOrder K] {vt : VType}

local notation "II" => (storeOf vt : StoreImpl V S (Fl K))
local notation "LL" => (labelStoreOf vt : LabelStore V S)

theorem filter_left {d : Dom V S} (hd : (Dict.keys d).Nodup) {v : V} {st : List S} (hv : (v, st) ∈ d) :
    (d.filter fun p => p.1 ∈ [v]) = [(v, st)] := by
  have h1 : (d.filter fun p => p.1 ∈ [v]).Nodup := (hd.of_map _).filter _
  refine List.Perm.eq_singleton ((List.perm_ext_iff_of_nodup h1 (by simp)).2 fun p => ?_)
  simp only [List.mem_filter, List.mem_singleton, decide_eq_true_eq]
  constructor
  · rintro ⟨hp, e⟩
    have e1 : Dict.get? d p.1 = some p.2 := Dict.get?_of_mem hd hp
    have e2 : Dict.get? d v = some st := Dict.get?_of_mem hd hv
    rw [e, e2] at e1
    exact Prod.ext e (Option.some.inj e1).symm
  · rintro rfl; exact ⟨hv, rfl⟩

/-- `constant` looks only at the class of the factor and at the domain of the left variable. -/
theorem AnyTable.constant_congr {B B' : BN V S K} {v : V} {f f' : AnyFactor II LL} (h : AnyTable B v f) (h' : AnyTable B' v f')
    (hs : B'.states v = B.states v) (hd : f'.isDet = f.isDet) (s : S) : f'.constant s = f.constant s := by
  have hl := h.left_eq
  have hl' := h'.left_eq
  have hm := filter_left h.domOk.keys h.mem_dom
  have hm' := filter_left h'.domOk.keys h'.mem_dom
  rw [hs] at hm'
  cases f with
  | multi g =>
    cases f' with
    | multi g' =>
      have l : g.leftVars = [v] := hl
      have l' : g'.leftVars = [v] := hl'
      have d : g.leftDomain = [(v, B.states v)] := by rw [Factor.leftDomain, l]; exact hm
      have d' : g'.leftDomain = [(v, B.states v)] := by rw [Factor.leftDomain, l']; exact hm'
      have : g'.constant s = g.constant s := by
        simp only [Factor.constant, d, d', l, l', Factor.buildFlat]
      rw [AnyFactor.constant, AnyFactor.constant, this]
    | det g' => cases hd
  | det g =>
    cases f' with
    | multi g' => cases hd
    | det g' =>
      have l : g.leftVars = [v] := hl
      have l' : g'.leftVars = [v] := hl'
      have d : g.leftDomain = [(v, B.states v)] := by rw [DetFactor.leftDomain, l]; exact hm
      have d' : g'.leftDomain = [(v, B.states v)] := by rw [DetFactor.leftDomain, l']; exact hm'
      have : g'.constant s = g.constant s := by
        simp only [DetFactor.constant, d, d', l, l']
      rw [AnyFactor.constant, AnyFactor.constant, this]

namespace SCM

theorem after_factors {g : DiGraph V} {D : V → List S} {check : Bool} {F : Type} {l : List (V × F)} (hn : g.nodes.Nodup)
    (hk : Dict.keys l = g.nodes) : (DagModel.after g D check l).factors = l.map fun p => (p.1, some p.2) := by
  show (g.nodes.map fun v => (v, Dict.get? l v)) = _
  rw [← hk]
  rw [← hk] at hn
  rw [Dict.keys, List.map_map]
  refine List.map_congr_left fun p hp => ?_
  have := Dict.get?_of_mem hn (k := p.1) (v := p.2) hp
  simp only [Function.comp]
  rw [this]

/-- What is known about a represented model, with its factors listed. -/
theorem Rep.interv {m : SCM II LL} {B : BN V S K} (h : m.Rep B) (hB : B.Valid) {l : List (V × AnyFactor II LL)}
    (hl : m.base.factors = l.map (fun p => (p.1, some p.2))) (hk : Dict.keys l = B.nodes) (ht : ∀ p ∈ l, AnyTable B p.1 p.2)
    {d : Obs V S} (hd : B.DoOk d) :
    m.intervention d = .ok ⟨DagModel.after (m.base.graph.removeIngoing (Dict.keys d)) B.states true
      (l.map fun p => (p.1, doFac d p)), m.endogenous, m.cast⟩ ∧
    (⟨DagModel.after (m.base.graph.removeIngoing (Dict.keys d)) B.states true
      (l.map fun p => (p.1, doFac d p)), m.endogenous, m.cast⟩ : SCM II LL).Rep (B.doBN d) := by
  have hmem : ∀ p ∈ l, p.1 ∈ B.nodes := fun p hp => by rw [← hk]; exact Dict.mem_keys_of_mem hp
  have hn : (Dict.keys l).Nodup := by rw [hk]; exact hB.nodes
  have hdet : ∀ p ∈ l, p.1 ∈ m.endogenous → m.cast = true → p.2.isDet = false := by
    intro p hp he hc
    refine h.casted hc p.1 he p.2 ?_
    rw [hl]
    refine Dict.get?_of_mem (by simpa [Dict.keys, List.map_map, Function.comp_def] using hn) (List.mem_map.2 ⟨p, hp, rfl⟩)
  have e : (l.map fun p => (p.1, prep m.endogenous m.cast true p.1 (doFac d p))) = l.map fun p => (p.1, doFac d p) := by
    refine List.map_congr_left fun p hp => ?_
    obtain ⟨_, h2, h3⟩ := doFac_ok hd (hmem p hp) (ht p hp)
    have := (h2.prepare (hB.doBN d) (hmem p hp) (endo := m.endogenous)
      (fun hv a ha => BN.doBN_zero_one fun _ => h.equations p.1 hv (hmem p hp) a ha) m.cast true).2.2.2
      (fun hv hc => by rw [h3]; exact hdet p hp hv hc)
    rw [this]
  have := h.intervention_eq hB hl hk ht hd
  rw [e] at this
  exact this

theorem removeIngoing_removeIngoing (g : DiGraph V) (x y : List V) : (g.removeIngoing x).removeIngoing y =
    ⟨g.nodes, g.edges.filter fun e => e.2 ∉ x ∧ e.2 ∉ y⟩ := by
  simp only [DiGraph.removeIngoing, List.filter_filter]
  congr 1
  refine List.filter_congr fun e _ => ?_
  by_cases h1 : e.2 ∈ x <;> by_cases h2 : e.2 ∈ y <;> simp [h1, h2]

theorem mem_keys_merge {κ ν : Type} [DecidableEq κ] {a b : List (κ × ν)} {k : κ} : k ∈ Dict.keys (Dict.merge a b) ↔ k ∈ Dict.keys a ∨ k ∈ Dict.keys b := by
  rw [Dict.keys_merge, List.mem_append, List.mem_filter]
  by_cases h : k ∈ Dict.keys a <;> simp [h]

theorem doOk_merge {B : BN V S K} {a b : Obs V S} (ha : B.DoOk a) (hb : B.DoOk b) : B.DoOk (Dict.merge a b) := by
  intro v s hs hv
  rw [Dict.get?_merge] at hs
  cases h : Dict.get? b v with
  | some t => rw [h] at hs; exact hb v s (h.trans hs) hv
  | none => rw [h] at hs; exact ha v s hs hv

/-- Two interventions in a row. -/
theorem Rep.interv_interv {m : SCM II LL} {B : BN V S K} (h : m.Rep B) (hB : B.Valid) {a b : Obs V S} (ha : B.DoOk a) (hb : B.DoOk b) :
    (do let m' ← m.intervention a; m'.intervention b) = m.intervention (Dict.merge a b) := by
  obtain ⟨l, hl, hk, ht⟩ := h.facs hB
  have hmem : ∀ p ∈ l, p.1 ∈ B.nodes := fun p hp => by rw [← hk]; exact Dict.mem_keys_of_mem hp
  obtain ⟨e1, r1⟩ := h.interv hB hl hk ht ha
  have hk1 : Dict.keys (l.map fun p => (p.1, doFac a p)) = B.nodes := by
    rw [← hk]; simp [Dict.keys, List.map_map, Function.comp_def]
  have hf1 : (DagModel.after (m.base.graph.removeIngoing (Dict.keys a)) B.states true
      (l.map fun p => (p.1, doFac a p))).factors = (l.map fun p => (p.1, doFac a p)).map fun p => (p.1, some p.2) :=
    after_factors (by show m.base.graph.nodes.Nodup; rw [h.nodes]; exact hB.nodes) (by rw [hk1]; exact h.nodes.symm)
  obtain ⟨e2, _⟩ := r1.interv (hB.doBN a) hf1 hk1 (fun p' hp' => by
    obtain ⟨p, hp, rfl⟩ := List.mem_map.1 hp'
    exact (doFac_ok ha (hmem p hp) (ht p hp)).2.1) (d := b) hb
  obtain ⟨e3, _⟩ := h.interv hB hl hk ht (doOk_merge ha hb)
  rw [e1, py_ok_bind, e2, e3]
  have hg : ((m.base.graph.removeIngoing (Dict.keys a)).removeIngoing (Dict.keys b)) =
      m.base.graph.removeIngoing (Dict.keys (Dict.merge a b)) := by
    rw [removeIngoing_removeIngoing, DiGraph.removeIngoing]
    congr 1
    refine List.filter_congr fun e _ => ?_
    simp only [mem_keys_merge, not_or]
  have hfs : ((l.map fun p => (p.1, doFac a p)).map fun p => (p.1, doFac b p)) = l.map fun p => (p.1, doFac (Dict.merge a b) p) := by
    rw [List.map_map]
    refine List.map_congr_left fun p hp => ?_
    simp only [Function.comp]
    congr 1
    obtain ⟨_, t1, d1⟩ := doFac_ok ha (hmem p hp) (ht p hp)
    cases hgb : Dict.get? b p.1 with
    | none =>
      have : Dict.get? (Dict.merge a b) p.1 = Dict.get? a p.1 := by rw [Dict.get?_merge, hgb]; rfl
      simp only [doFac, hgb, this]
    | some s =>
      have : Dict.get? (Dict.merge a b) p.1 = some s := by rw [Dict.get?_merge, hgb]; rfl
      have hc : (doFac a p).constant s = p.2.constant s := (ht p hp).constant_congr t1 rfl d1 s
      obtain ⟨f', hf', _⟩ := (ht p hp).constant hgb (hb _ _ hgb (hmem p hp))
      have key : ∀ f0 : AnyFactor II LL, f0.constant s = .ok f' → doFac b (p.1, f0) = f' := by
        intro f0 h0; simp only [doFac, hgb, h0]
      have e1 : doFac b (p.1, doFac a p) = f' := key _ (hc.trans hf')
      have e2 : doFac (Dict.merge a b) p = f' := by simp only [doFac, this, hf']
      rw [e1, e2]
  simp only [hfs]
  show _ = Except.ok (⟨DagModel.after (m.base.graph.removeIngoing (Dict.keys (Dict.merge a b))) B.states true _, _, _⟩ : SCM II LL)
  rw [← hg]
  rfl

/-! ### Constructors -/

theorem endoOr_nil {g : DiGraph V} (hg : g.WF) {endo : Option (List V)} (h : endoOr g endo = []) : g.edges = [] := by
  have hd : defaultEndo g = [] → g.edges = [] := by
    intro h
    rw [defaultEndo, List.filter_eq_nil_iff] at h
    cases he : g.edges with
    | nil => rfl
    | cons e l =>
      have hm : e ∈ g.edges := by rw [he]; exact List.mem_cons_self
      have := h e.2 (hg.ends _ hm).2
      have hp : e.1 ∈ g.pred e.2 := DiGraph.mem_pred.2 hm
      exact absurd (by simpa using List.length_pos_of_mem hp) this
  cases endo with
  | none => exact hd h
  | some l =>
    rw [endoOr] at h
    split at h
    · exact hd h
    · rename_i h'; exact absurd h h'

/-- The constructor with a dictionary or a list of tables. -/
theorem rep_built {B : BN V S K} (hB : B.Valid) {g : DiGraph V} (hg : g.WF) (hgn : g.nodes = B.nodes)
    (hp : ∀ v ∈ B.nodes, ∀ p, p ∈ B.parents v ↔ (p, v) ∈ g.edges) {l : List (V × AnyFactor II LL)}
    (hk : (Dict.keys l).Perm B.nodes) (ht : ∀ p ∈ l, AnyTable B p.1 p.2) (endo : Option (List V)) (cast check : Bool)
    (heq : ∀ v ∈ endoOr g endo, v ∈ B.nodes → ∀ a, B.InStates a → B.table v a = 0 ∨ B.table v a = 1) {m : SCM II LL}
    (hm : m = ⟨DagModel.after g B.states check (l.map fun p => (p.1, prep (endoOr g endo) cast check p.1 p.2)), endoOr g endo, cast⟩) :
    ofDict g (l.map fun p => (p.1, some p.2)) endo cast check = .ok m ∧ ofList g (l.map fun p => some p.2) endo cast check = .ok m ∧
    m.Rep B := by
  subst hm
  have hmem : ∀ p ∈ l, p.1 ∈ B.nodes := fun p hp => hk.mem_iff.1 (Dict.mem_keys_of_mem hp)
  have hacy : g.Acyclic := by
    intro v hv
    refine hB.acyclic v (Relation.TransGen.mono (fun u w huw => ?_) _ _ hv)
    have hw : w ∈ B.nodes := by rw [← hgn]; exact (hg.ends _ huw).2
    exact ⟨hw, (hp w hw u).2 huw⟩
  have hn : (Dict.keys l).Nodup := hk.nodup_iff.2 hB.nodes
  have hprep : ∀ p ∈ l, _ := fun p hp => (ht p hp).prepare hB (hmem p hp) (endo := endoOr g endo)
    (fun hv => heq p.1 hv (hmem p hp)) cast check
  have hfit : ∀ p ∈ l, DagModel.Fits g B.states p.1 (prep (endoOr g endo) cast check p.1 p.2) := fun p hpm =>
    (hprep p hpm).2.1.fits (by rw [hgn]; exact hmem p hpm) (hp p.1 (hmem p hpm))
  refine ⟨ofDict_fits hg hacy endo l (fun p hp => (hprep p hp).1) hfit hn,
    ofList_fits hg hacy endo l (fun p hp => (ht p hp).left_eq) (fun p hp => (hprep p hp).1) hfit hn, ?_⟩
  refine rep_after hB hg hgn hp ?_ ?_ heq ?_ (endoOr_nil hg)
  · have : Dict.keys (l.map fun p => (p.1, prep (endoOr g endo) cast check p.1 p.2)) = Dict.keys l := by
      simp [Dict.keys, List.map_map, Function.comp_def]
    rw [this]; exact hk
  · intro p' hp'
    obtain ⟨p, hp, rfl⟩ := List.mem_map.1 hp'
    exact (hprep p hp).2.1
  · intro hc p' hp' hv
    obtain ⟨p, hp, rfl⟩ := List.mem_map.1 hp'
    exact (hprep p hp).2.2.1 hv hc

/-- A represented model without deterministic factors represents the network. -/
theorem Rep.represents {m : SCM II LL} {B : BN V S K} (h : m.Rep B)
    (hd : ∀ v f, Dict.get? m.base.factors v = some (some f) → f.isDet = false) :
    Represents (I := II) m.base B where
  wf := h.wf
  nodes := h.nodes
  parents := h.parents
  keys := h.keys
  table := by
    intro v hv
    obtain ⟨f, h1, h2⟩ := h.table v hv
    have := hd v f h1
    cases f with
    | multi g => exact ⟨_, g, h1, rfl, h2⟩
    | det g => cases this

theorem Rep.get_of_mem {m : SCM II LL} {B : BN V S K} (h : m.Rep B) (hB : B.Valid) {l : List (V × AnyFactor II LL)}
    (hl : m.base.factors = l.map (fun p => (p.1, some p.2))) (hk : Dict.keys l = B.nodes) {p : V × AnyFactor II LL} (hp : p ∈ l) :
    Dict.get? m.base.factors p.1 = some (some p.2) := by
  rw [hl]
  refine Dict.get?_of_mem ?_ (List.mem_map.2 ⟨p, hp, rfl⟩)
  have : Dict.keys (l.map fun p => (p.1, some p.2)) = Dict.keys l := by simp [Dict.keys, List.map_map, Function.comp_def]
  rw [this, hk]; exact hB.nodes

theorem mem_defaultEndo {g : DiGraph V} (hg : g.WF) {v : V} : v ∈ defaultEndo g ↔ ∃ p, (p, v) ∈ g.edges := by
  rw [defaultEndo, List.mem_filter]
  constructor
  · rintro ⟨_, h⟩
    obtain ⟨p, hp⟩ := List.exists_mem_of_length_pos (by simpa using h)
    exact ⟨p, DiGraph.mem_pred.1 hp⟩
  · rintro ⟨p, hp⟩
    exact ⟨(hg.ends _ hp).2, by simpa using List.length_pos_of_mem (DiGraph.mem_pred.2 hp)⟩

/-- `to_multinomial`: the model is rebuilt with the nodes that have parents as endogenous ones. -/
theorem Rep.toMultinomial {m : SCM II LL} {B : BN V S K} (h : m.Rep B) (hB : B.Valid)
    (heq : ∀ v ∈ B.nodes, B.parents v ≠ [] → ∀ a, B.InStates a → B.table v a = 0 ∨ B.table v a = 1) :
    ∃ m', m.toMultinomial = .ok m' ∧ m'.Rep B ∧ m'.base.graph = m.base.graph ∧ m'.endogenous = defaultEndo m.base.graph ∧
      m'.cast = true ∧
      ∀ v f', Dict.get? m'.base.factors v = some (some f') → (B.parents v ≠ [] → f'.isDet = false) ∧
        (B.parents v = [] → Dict.get? m.base.factors v = some (some f')) := by
  obtain ⟨l, hl, hk, ht⟩ := h.facs hB
  have hmem : ∀ p ∈ l, p.1 ∈ B.nodes := fun p hp => by rw [← hk]; exact Dict.mem_keys_of_mem hp
  have hde : ∀ v ∈ defaultEndo m.base.graph, v ∈ B.nodes → B.parents v ≠ [] := by
    intro v hv hvn
    obtain ⟨p, hp⟩ := (mem_defaultEndo h.wf).1 hv
    exact List.ne_nil_of_mem ((h.parents v hvn p).2 hp)
  have heq' : ∀ v ∈ endoOr m.base.graph none, v ∈ B.nodes → ∀ a, B.InStates a → B.table v a = 0 ∨ B.table v a = 1 :=
    fun v hv hvn => heq v hvn (hde v hv hvn)
  obtain ⟨e1, _, e3⟩ := rep_built hB h.wf h.nodes h.parents (by rw [hk]) ht none true true heq' rfl
  rw [← hl] at e1
  refine ⟨_, e1, e3, rfl, rfl, rfl, fun v f' hf' => ?_⟩
  have hv : v ∈ B.nodes := by
    rw [← h.nodes]
    have := Dict.mem_keys_of_mem (Dict.mem_of_get? hf')
    rw [e3.keys] at this; exact this
  constructor
  · intro hpa
    obtain ⟨p, hp⟩ := List.exists_mem_of_ne_nil _ hpa
    exact e3.casted rfl v ((mem_defaultEndo h.wf).2 ⟨p, (h.parents v hv p).1 hp⟩) f' hf'
  · intro hpa
    have hnd : v ∉ defaultEndo m.base.graph := fun hc => hde v hc hv hpa
    have hf2 : Dict.get? (m.base.graph.nodes.map fun w => (w, Dict.get? (l.map fun p => (p.1, prep (defaultEndo m.base.graph) true true p.1 p.2)) w)) v =
      some (some f') := hf'
    rw [Dict.get?_map] at hf2
    split at hf2
    · injection hf2 with hf2
      obtain ⟨p, hp, e⟩ := List.mem_map.1 (Dict.mem_of_get? hf2)
      injection e with e1 e2
      subst e1
      have := ((ht p hp).prepare hB (hmem p hp) (endo := defaultEndo m.base.graph)
        (fun hv => absurd hv hnd) true true).2.2.2 (fun hv => absurd hv hnd)
      rw [this] at e2
      rw [h.get_of_mem hB hl hk hp, e2]
    · cases hf2

/-- `copy` gives the same object. -/
theorem Rep.copy {m : SCM II LL} {B : BN V S K} (h : m.Rep B) (hB : B.Valid) : ∃ m', m.copy = .ok m' ∧ m'.Rep B ∧
    m'.base.graph = m.base.graph ∧ m'.base.factors = m.base.factors ∧ m'.endogenous = m.endogenous ∧ m'.cast = m.cast := by
  obtain ⟨l, hl, hk, ht⟩ := h.facs hB
  have hmem : ∀ p ∈ l, p.1 ∈ B.nodes := fun p hp => by rw [← hk]; exact Dict.mem_keys_of_mem hp
  have he : endoOr m.base.graph (some m.endogenous) = m.endogenous := endoOr_some h.endo
  obtain ⟨e1, _, e3⟩ := rep_built hB h.wf h.nodes h.parents (by rw [hk]) ht (some m.endogenous) m.cast true
    (by rw [he]; exact h.equations) rfl
  rw [← hl] at e1
  refine ⟨_, e1, e3, rfl, ?_, he, rfl⟩
  rw [after_factors (by rw [h.nodes]; exact hB.nodes) (by
    rw [h.nodes, ← hk]; simp [Dict.keys, List.map_map, Function.comp_def]), hl, List.map_map]
  refine List.map_congr_left fun p hp => ?_
  rw [he]
  have := ((ht p hp).prepare hB (hmem p hp) (endo := m.endogenous) (fun hv => h.equations p.1 hv (hmem p hp)) m.cast true).2.2.2
    (fun hv hc => h.casted hc p.1 hv p.2 (h.get_of_mem hB hl hk hp))
  simp only [Function.comp, this]

end SCM

/-- `BayesianNetwork(g, fs)` with a dictionary of tables. -/
theorem DagModel.ofDict_tables {B : BN V S K} (hB : B.Valid) {g : DiGraph V} (hg : g.WF) (hgn : g.nodes = B.nodes)
    (hp : ∀ v ∈ B.nodes, ∀ p, p ∈ B.parents v ↔ (p, v) ∈ g.edges) {l : List (V × AnyFactor II LL)}
    (hk : (Dict.keys l).Perm B.nodes) (ht : ∀ p ∈ l, AnyTable B p.1 p.2) (check : Bool) :
    DagModel.ofDict g (l.map fun p => (p.1, some p.2)) check = .ok (DagModel.after g B.states check l) := by
  have hmem : ∀ p ∈ l, p.1 ∈ B.nodes := fun p hp => hk.mem_iff.1 (Dict.mem_keys_of_mem hp)
  have hacy : g.Acyclic := by
    intro v hv
    refine hB.acyclic v (Relation.TransGen.mono (fun u w huw => ?_) _ _ hv)
    have hw : w ∈ B.nodes := by rw [← hgn]; exact (hg.ends _ huw).2
    exact ⟨hw, (hp w hw u).2 huw⟩
  rw [DagModel.ofDict, DagModel.init_ok hg hacy, ← DagModel.after_nil g B.states check, py_ok_bind, DagModel.setFactorsDict,
    List.foldlM_map]
  exact DagModel.setAll (fs := []) l (fun p hpm => (ht p hpm).fits (by rw [hgn]; exact hmem p hpm) (hp p.1 (hmem p hpm)))
    (hk.nodup_iff.2 hB.nodes)

/-- `to_bnet` -/
theorem SCM.Rep.toBnet {m : SCM II LL} {B : BN V S K} (h : m.Rep B) (hB : B.Valid)
    (heq : ∀ v ∈ B.nodes, B.parents v ≠ [] → ∀ a, B.InStates a → B.table v a = 0 ∨ B.table v a = 1)
    (hend : ∀ v ∈ B.nodes, B.parents v ≠ [] → v ∈ m.endogenous) (hsub : ∀ v ∈ m.endogenous, v ∈ B.nodes)
    (hroot : ∀ v f, B.parents v = [] → Dict.get? m.base.factors v = some (some f) → f.isDet = false) :
    ∃ b, m.toBnet = .ok b ∧ b.graph = m.base.graph ∧ Represents (I := II) b B := by
  have fin : ∀ m' : SCM II LL, m'.Rep B → (∀ v f, Dict.get? m'.base.factors v = some (some f) → f.isDet = false) →
      ∃ b, DagModel.ofDict m'.base.graph m'.base.factors true = .ok b ∧ b.graph = m'.base.graph ∧ Represents (I := II) b B := by
    intro m' h' hdet
    obtain ⟨l, hl, hk, ht⟩ := h'.facs hB
    have := DagModel.ofDict_tables hB h'.wf h'.nodes h'.parents (by rw [hk]) ht true
    rw [← hl] at this
    refine ⟨_, this, rfl, ?_⟩
    have hfac : (DagModel.after m'.base.graph B.states true l).factors = m'.base.factors := by
      rw [SCM.after_factors (by rw [h'.nodes]; exact hB.nodes) (by rw [h'.nodes, hk]), hl]
    have r := h'.represents hdet
    exact ⟨r.wf, r.nodes, r.parents, by rw [hfac]; exact r.keys, by rw [hfac]; exact r.table⟩
  obtain ⟨fs, hfs⟩ : ∃ fs, m.endogenous.mapM (Dict.get m.base.factors) = .ok fs ∧
      ∀ v f, v ∈ m.endogenous → Dict.get? m.base.factors v = some (some f) → some f ∈ fs := by
    have : ∀ l : List V, (∀ v ∈ l, v ∈ B.nodes) → ∃ fs, l.mapM (Dict.get m.base.factors) = .ok fs ∧
        ∀ v f, v ∈ l → Dict.get? m.base.factors v = some (some f) → some f ∈ fs := by
      intro l
      induction l with
      | nil => intro _; exact ⟨[], rfl, by simp⟩
      | cons x l ih =>
        intro hl
        obtain ⟨fs, h1, h2⟩ := ih fun v hv => hl v (List.mem_cons_of_mem _ hv)
        obtain ⟨f, hf, _⟩ := h.table x (hl x List.mem_cons_self)
        refine ⟨some f :: fs, ?_, ?_⟩
        · rw [List.mapM_cons, h1, Dict.get, hf]; rfl
        · intro v f' hv hf'
          rcases List.mem_cons.1 hv with rfl | hv
          · rw [hf] at hf'; injection hf' with hf'; rw [hf']; exact List.mem_cons_self
          · exact List.mem_cons_of_mem _ (h2 v f' hv hf')
    exact this _ hsub
  rw [SCM.toBnet, SCM.hasDeterministic, hfs.1]
  simp only [py_ok_bind]
  cases hb : (fs.any SCM.slotDet) with
  | true =>
    obtain ⟨m', h1, h2, h3, h4, h5, h6⟩ := h.toMultinomial hB heq
    obtain ⟨b, b1, b2, b3⟩ := fin m' h2 fun v f hf => by
      by_cases hpa : B.parents v = []
      · exact hroot v f hpa ((h6 v f hf).2 hpa)
      · exact (h6 v f hf).1 hpa
    refine ⟨b, ?_, by rw [b2, h3], b3⟩
    simp only [pure, Except.pure, py_ok_bind, hb, if_true, h1, b1]
  | false =>
    obtain ⟨b, b1, b2, b3⟩ := fin m h fun v f hf => by
      by_cases hpa : B.parents v = []
      · exact hroot v f hpa hf
      · have hv : v ∈ B.nodes := by
          rw [← h.nodes, ← h.keys]; exact Dict.mem_keys_of_mem (Dict.mem_of_get? hf)
        have := List.any_eq_false.1 hb _ (hfs.2 v f (hend v hv hpa) hf)
        simpa [SCM.slotDet] using this
    refine ⟨b, ?_, b2, b3⟩
    simp [pure, Except.pure, py_ok_bind, hb, b1]

end Verif
