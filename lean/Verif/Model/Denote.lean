import Verif.Model.Represents
import Verif.Model.Lemmas
import Verif.Graph.Lemmas

/-!
# The network that a model object denotes

`ofModel m` reads a network off the object, cell by cell, and `NetLike I m` says when the object
represents it.  The checkable conditions at the end are used for concrete examples.
-/

set_option linter.unusedSectionVars false
set_option linter.unusedSimpArgs false

namespace Verif

variable {V S K : Type} [DecidableEq V] [DecidableEq S] [Nonempty S] [Field K] [LinearOrder K]
  {I : StoreImpl V S (Fl K)} {F : Type} [VEFactor F I]

/-- The value of a factor at an assignment (0 when it is not a number). -/
def Factor.at (g : Factor I) (a : V → S) : K :=
  match g.getValue (g.dom.map fun p => (p.1, a p.1)) with
  | .ok (.fin x) => x
  | _ => 0

variable (I) in
def BN.ofModel (m : DagModel F V S) : BN V S K where
  nodes := m.graph.nodes
  parents := m.graph.pred
  states v := match Dict.get? m.domains v with
    | some (some st) => st
    | _ => []
  table v a := match Dict.get? m.factors v with
    | some (some f) => match (VEFactor.view f : Option (Factor I)) with
      | some g => g.at a
      | none => 0
    | _ => 0

/-- A factor for every node, with the node on the left, its parents on the right, the states recorded in the model
and only finite values. -/
structure NetLike (I : StoreImpl V S (Fl K)) {F : Type} [VEFactor F I] (m : DagModel F V S) : Prop where
  wf : m.graph.WF
  acyclic : m.graph.Acyclic
  keys : Dict.keys m.factors = m.graph.nodes
  table : ∀ v ∈ m.graph.nodes, ∃ f, ∃ g : Factor I, Dict.get? m.factors v = some (some f) ∧ VEFactor.view f = some g ∧ g.WF ∧
    SameSet [v] g.leftVars ∧ SameSet (m.graph.pred v) g.rightVars ∧ (∀ w ∈ g.rightVars, w ∈ g.vars) ∧
    (∀ p ∈ g.dom, Dict.get? m.domains p.1 = some (some p.2)) ∧
    ∀ obs, FullObs g.dom obs → ∃ x : K, g.getValue obs = .ok (Fl.fin x)

theorem fullObs_of_states {d : Dom V S} (hk : (Dict.keys d).Nodup) {a : V → S} (ha : ∀ p ∈ d, a p.1 ∈ p.2) :
    FullObs d (d.map fun p => (p.1, a p.1)) ∧
      ∀ w ∈ Dict.keys d, (asg (d.map fun p => (p.1, a p.1)) : V → S) w = a w := by
  have hget : ∀ w ∈ Dict.keys d, Dict.get? (d.map fun p => (p.1, a p.1)) w = some (a w) := by
    intro w hw
    obtain ⟨st, hst⟩ := Dict.mem_keys.1 hw
    refine Dict.get?_of_mem ?_ (List.mem_map.2 ⟨(w, st), hst, rfl⟩)
    have : Dict.keys (d.map fun p => (p.1, a p.1)) = Dict.keys d := by simp [Dict.keys, List.map_map, Function.comp_def]
    rw [this]; exact hk
  exact ⟨fun p hp => ⟨a p.1, ha p hp, hget _ (Dict.mem_keys_of_mem hp)⟩, fun w hw => over_of_get? (hget w hw)⟩

theorem Factor.at_congr {g : Factor I} {a b : V → S} (h : ∀ v ∈ g.vars, a v = b v) : g.at a = g.at b := by
  have : (g.dom.map fun p => (p.1, a p.1)) = g.dom.map fun p => (p.1, b p.1) :=
    List.map_congr_left fun p hp => by rw [h p.1 (Dict.mem_keys_of_mem hp)]
  rw [Factor.at, Factor.at, this]

theorem Factor.at_sem (hI : I.Lawful) {g : Factor I} (hg : g.WF)
    (hfin : ∀ obs, FullObs g.dom obs → ∃ x : K, g.getValue obs = .ok (Fl.fin x)) {a : V → S} (ha : InDom g.dom a) :
    g.sem a = .fin (g.at a) := by
  obtain ⟨h1, h2⟩ := fullObs_of_states (hg.domOk hI).keys ha
  obtain ⟨x, hx⟩ := hfin _ h1
  rw [Factor.at, hx]
  rw [Factor.getValue_full hI hg h1] at hx
  rw [← hg.sem_congr hI h2]
  injection hx

theorem NetLike.represents (hI : I.Lawful) {m : DagModel F V S} (h : NetLike I m) :
    Represents m (BN.ofModel I m) ∧ (BN.ofModel I m).Valid := by
  have vars : ∀ v (g : Factor I), SameSet [v] g.leftVars → SameSet (m.graph.pred v) g.rightVars →
      (∀ w ∈ g.rightVars, w ∈ g.vars) → ∀ w, w ∈ g.vars ↔ w = v ∨ w ∈ m.graph.pred v := by
    intro v g hl hr hs w
    constructor
    · intro hw
      by_cases hwr : w ∈ g.rightVars
      · exact .inr (hr.2 w hwr)
      · exact .inl (by simpa using hl.2 w ((Factor.mem_leftVars hI).2 ⟨hw, hwr⟩))
    · rintro (rfl | hw)
      · exact ((Factor.mem_leftVars hI).1 (hl.1 w (by simp))).1
      · exact hs w (hr.1 w hw)
  have tab : ∀ v f g, Dict.get? m.factors v = some (some f) → VEFactor.view f = some g →
      ∀ a, (BN.ofModel I m : BN V S K).table v a = g.at a := by
    intro v f g h1 h2 a
    simp only [BN.ofModel, h1, h2]
  have st : ∀ v s, Dict.get? m.domains v = some (some s) → (BN.ofModel I m : BN V S K).states v = s := by
    intro v s h1
    simp only [BN.ofModel, h1]
  refine ⟨⟨h.wf, rfl, fun v _ p => DiGraph.mem_pred, h.keys, ?_⟩, ⟨h.wf.nodes, ?_, ?_, ?_, ?_, ?_⟩⟩
  · intro v hv
    obtain ⟨f, g, h1, h2, h3, h4, h5, h6, h7, h8⟩ := h.table v hv
    refine ⟨f, g, h1, h2, h3, ?_, ?_, vars v g h4 h5 h6, fun p hp => (st _ _ (h7 p hp)).symm, ?_⟩
    · intro w
      constructor
      · intro hw; simpa using h4.2 w hw
      · rintro rfl; exact h4.1 w (by simp)
    · exact fun w => ⟨fun hw => h5.2 w hw, fun hw => h5.1 w hw⟩
    · intro obs ho
      rw [Factor.getValue_full hI h3 ho, Factor.at_sem hI h3 h8 ho.inDom, tab v f g h1 h2]
  · intro v hv p hp
    exact (h.wf.ends _ (DiGraph.mem_pred.1 hp)).1
  · intro v hv
    exact h.acyclic v (Relation.TransGen.mono (fun a b hab => DiGraph.mem_pred.1 hab.2) _ _ hv)
  · intro v hv
    obtain ⟨f, g, h1, h2, h3, h4, h5, h6, h7, h8⟩ := h.table v hv
    obtain ⟨s, hs⟩ := Dict.mem_keys.1 ((vars v g h4 h5 h6 v).2 (.inl rfl))
    rw [st v s (h7 _ hs)]
    exact (h3.domOk hI).states _ hs
  · intro v hv
    obtain ⟨f, g, h1, h2, h3, h4, h5, h6, h7, h8⟩ := h.table v hv
    obtain ⟨s, hs⟩ := Dict.mem_keys.1 ((vars v g h4 h5 h6 v).2 (.inl rfl))
    rw [st v s (h7 _ hs)]
    exact (h3.domOk hI).nonempty _ hs
  · intro v hv a b hab
    obtain ⟨f, g, h1, h2, h3, h4, h5, h6, h7, h8⟩ := h.table v hv
    rw [tab v f g h1 h2, tab v f g h1 h2]
    refine Factor.at_congr fun w hw => hab w (List.mem_cons.2 ((vars v g h4 h5 h6 w).1 hw))

/-! ### Conditions that can be evaluated -/

def Fl.isFin : Fl K → Bool
  | .fin _ => true
  | _ => false

/-- All cells are numbers. -/
def Factor.allFin (g : Factor I) : Bool :=
  match g.valuesList with
  | .ok l => l.all Fl.isFin
  | .error _ => false

theorem Factor.allFin_spec (hI : I.Lawful) {g : Factor I} (hg : g.WF) (h : g.allFin = true) :
    ∀ obs, FullObs g.dom obs → ∃ x : K, g.getValue obs = .ok (Fl.fin x) := by
  intro obs ho
  rw [Factor.allFin, Factor.valuesList_ok hI hg] at h
  simp only [List.all_map, List.all_eq_true] at h
  have hk := (hg.domOk hI).keys
  -- the cell at the observation is listed
  have hmem : (g.dom.map fun p => (p.1, (asg obs : V → S) p.1)) ∈ assignmentSpace g.dom := by
    exact List.mem_of_getElem? (assignmentSpace_getElem? ho.inDom)
  have := h _ hmem
  obtain ⟨h1, h2⟩ := fullObs_of_states hk (a := (asg obs : V → S)) ho.inDom
  simp only [Function.comp] at this
  rw [hg.sem_congr hI h2] at this
  rw [Factor.getValue_full hI hg ho]
  cases hs : g.sem (asg obs) with
  | fin x => exact ⟨x, rfl⟩
  | nan => rw [hs] at this; cases this
  | pinf => rw [hs] at this; cases this
  | ninf => rw [hs] at this; cases this

/-- The conditions of `NetLike` on one node, evaluated. -/
def DagModel.nodeOk (I : StoreImpl V S (Fl K)) {F : Type} [VEFactor F I] (m : DagModel F V S) (v : V) : Bool :=
  match Dict.get? m.factors v with
  | some (some f) => match (VEFactor.view f : Option (Factor I)) with
    | some g => SameSet [v] g.leftVars ∧ SameSet (m.graph.pred v) g.rightVars ∧ (∀ w ∈ g.rightVars, w ∈ g.vars) ∧
        (∀ p ∈ g.dom, Dict.get? m.domains p.1 = some (some p.2)) ∧ g.allFin = true
    | none => false
  | _ => false

/-- The conditions of `NetLike`, evaluated. -/
def DagModel.netOk (I : StoreImpl V S (Fl K)) {F : Type} [VEFactor F I] (m : DagModel F V S) : Bool :=
  decide m.graph.nodes.Nodup && decide m.graph.edges.Nodup &&
    decide (∀ e ∈ m.graph.edges, e.1 ∈ m.graph.nodes ∧ e.2 ∈ m.graph.nodes) &&
    !m.graph.hasCycle && decide (Dict.keys m.factors = m.graph.nodes) && m.graph.nodes.all (DagModel.nodeOk I m)

/-- All factors are well formed. -/
def DagModel.FactorsWF (I : StoreImpl V S (Fl K)) {F : Type} [VEFactor F I] (m : DagModel F V S) : Prop :=
  ∀ v f (g : Factor I), Dict.get? m.factors v = some (some f) → VEFactor.view f = some g → g.WF

theorem netLike_of_netOk (hI : I.Lawful) {m : DagModel F V S} (hw : DagModel.FactorsWF I m) (h : (DagModel.netOk I m) = true) : NetLike I m := by
  simp only [DagModel.netOk, Bool.and_eq_true, decide_eq_true_eq, Bool.not_eq_true', List.all_eq_true] at h
  obtain ⟨⟨⟨⟨⟨h1, h2⟩, h3⟩, h4⟩, h5⟩, h6⟩ := h
  have hwf : m.graph.WF := ⟨h1, h2, h3⟩
  refine ⟨hwf, (DiGraph.hasCycle_iff hwf).1 h4, h5, fun v hv => ?_⟩
  have h7 := h6 v hv
  rw [DagModel.nodeOk] at h7
  cases e1 : Dict.get? m.factors v with
  | none => simp [e1] at h7
  | some o =>
    cases o with
    | none => simp [e1] at h7
    | some f =>
      simp only [e1] at h7
      cases e2 : (VEFactor.view f : Option (Factor I)) with
      | none => simp [e2] at h7
      | some g =>
        simp only [e2, decide_eq_true_eq] at h7
        obtain ⟨a, b, c, d, e⟩ := h7
        have := hw v f g e1 e2
        exact ⟨f, g, rfl, e2, this, a, b, c, d, Factor.allFin_spec hI this e⟩

/-- Every column of the factor for `v` sums to one: evaluated by summing it out. -/
def DagModel.nodeNorm (I : StoreImpl V S (Fl K)) {F : Type} [VEFactor F I] (m : DagModel F V S) (v : V) : Bool :=
  match Dict.get? m.factors v with
  | some (some f) => match (VEFactor.view f : Option (Factor I)) with
    | some g => match g.marginalize [v] with
      | .ok r => match r.valuesList with
        | .ok l => decide (∀ x ∈ l, x = Fl.fin 1)
        | .error _ => false
      | .error _ => false
    | none => false
  | _ => false

/-- No negative entry in the factor for `v`. -/
def DagModel.nodeNonNeg (I : StoreImpl V S (Fl K)) {F : Type} [VEFactor F I] (m : DagModel F V S) (v : V) : Bool :=
  match Dict.get? m.factors v with
  | some (some f) => match (VEFactor.view f : Option (Factor I)) with
    | some g => match g.valuesList with
      | .ok l => l.all fun x => match x with
        | .fin k => decide (0 ≤ k)
        | _ => false
      | .error _ => false
    | none => false
  | _ => false

theorem Factor.mem_values (hI : I.Lawful) {g : Factor I} (hg : g.WF) {l : List (Fl K)} (h : g.valuesList = .ok l)
    {a : V → S} (ha : InDom g.dom a) : g.sem a ∈ l := by
  rw [Factor.valuesList_ok hI hg] at h
  injection h with h
  rw [← h]
  refine List.mem_map.2 ⟨_, List.mem_of_getElem? (assignmentSpace_getElem? ha), ?_⟩
  exact hg.sem_congr hI (fullObs_of_states (hg.domOk hI).keys ha).2

theorem NetLike.nonNeg (hI : I.Lawful) {m : DagModel F V S} (h : NetLike I m) (hn : m.graph.nodes.all (DagModel.nodeNonNeg I m) = true) :
    (BN.ofModel I m : BN V S K).NonNeg := by
  obtain ⟨hr, hB⟩ := h.represents hI
  intro v hv a ha
  obtain ⟨f, g, e1, e2, h3, h4, h5, h6, h7, h8⟩ := h.table v hv
  have h9 := List.all_eq_true.1 hn v hv
  obtain ⟨f', g', e1', e2', ht⟩ := hr.table v hv
  rw [e1] at e1'; injection e1' with e1'; injection e1' with e1'; subst e1'
  rw [e2] at e2'; injection e2' with e2'; subst e2'
  have hin : InDom g.dom a := fun p hp => by
    rw [ht.dom p hp]
    have : p.1 ∈ g.vars := Dict.mem_keys_of_mem hp
    rcases (ht.vars _).1 this with h | h
    · rw [h]; exact ha v hv
    · exact ha _ (hB.parents v hv _ h)
  have htab : (BN.ofModel I m : BN V S K).table v a = g.at a := by simp only [BN.ofModel, e1, e2]
  rw [htab]
  cases hl : g.valuesList with
  | error e => simp [DagModel.nodeNonNeg, e1, e2, hl] at h9
  | ok l =>
    have hm := Factor.mem_values hI h3 hl hin
    rw [Factor.at_sem hI h3 h8 hin] at hm
    simp only [DagModel.nodeNonNeg, e1, e2, hl, List.all_eq_true] at h9
    simpa using h9 _ hm

theorem NetLike.normalised (hI : I.Lawful) {m : DagModel F V S} (h : NetLike I m)
    (hn : m.graph.nodes.all (DagModel.nodeNorm I m) = true) : (BN.ofModel I m : BN V S K).Normalised := by
  obtain ⟨hr, hB⟩ := h.represents hI
  intro v hv a ha
  obtain ⟨f, g, e1, e2, h3, h4, h5, h6, h7, h8⟩ := h.table v hv
  have h9 := List.all_eq_true.1 hn v hv
  obtain ⟨f', g', e1', e2', ht⟩ := hr.table v hv
  rw [e1] at e1'; injection e1' with e1'; injection e1' with e1'; subst e1'
  rw [e2] at e2'; injection e2' with e2'; subst e2'
  have hrep : Factor.Rep (BN.ofModel I m : BN V S K).states g g.at :=
    ⟨h3, ht.dom, fun b hb => Factor.at_sem hI h3 h8 (Factor.inDom_of_states ht.dom hb)⟩
  have htab : ∀ b, (BN.ofModel I m : BN V S K).table v b = g.at b := fun b => by simp only [BN.ofModel, e1, e2]
  have hvv : v ∈ g.vars := (ht.vars v).2 (.inl rfl)
  obtain ⟨r, r1, r2, r3, r4, _⟩ := hrep.marginalize hI (xs := [v]) (by simpa using hvv) (by simp)
  cases hl : r.valuesList with
  | error e => simp [DagModel.nodeNorm, e1, e2, r1, hl] at h9
  | ok l =>
    have hain : ∀ w ∈ r.vars, a w ∈ (BN.ofModel I m : BN V S K).states w := by
      intro w hw
      obtain ⟨hw, _⟩ := (r4 w).1 hw
      rcases (ht.vars _).1 hw with h | h
      · rw [h]; exact ha v hv
      · exact ha _ (hB.parents v hv _ h)
    have hm := Factor.mem_values hI r2.wf hl (Factor.inDom_of_states r2.dom hain)
    rw [r2.sem a hain] at hm
    simp only [DagModel.nodeNorm, e1, e2, r1, hl, decide_eq_true_eq] at h9
    have := h9 _ hm
    injection this with this
    simp only [htab]
    exact this

/-- Everything the theorems on inference ask of a model, evaluated. -/
def DagModel.allOk (I : StoreImpl V S (Fl K)) {F : Type} [VEFactor F I] (m : DagModel F V S) : Bool :=
  (DagModel.netOk I m) && m.graph.nodes.all (DagModel.nodeNorm I m) && m.graph.nodes.all (DagModel.nodeNonNeg I m)

theorem allOk_spec (hI : I.Lawful) {m : DagModel F V S} (hw : DagModel.FactorsWF I m) (h : (DagModel.allOk I m) = true) :
    Represents m (BN.ofModel I m) ∧ (BN.ofModel I m : BN V S K).Valid ∧ (BN.ofModel I m : BN V S K).Normalised ∧
      (BN.ofModel I m : BN V S K).NonNeg := by
  simp only [DagModel.allOk, Bool.and_eq_true] at h
  have hn := netLike_of_netOk hI hw h.1.1
  exact ⟨(hn.represents hI).1, (hn.represents hI).2, hn.normalised hI h.1.2, hn.nonNeg hI h.2⟩

end Verif
