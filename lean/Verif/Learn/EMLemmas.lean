import Verif.Learn.EM
import Verif.Spec.Learning
import Verif.Props.Inference
import Verif.Props.Graph
import Verif.Props.Data
import Verif.Model.SetAll
import Verif.Model.Intervene

/-!
# Expectation maximisation: helper lemmas
-/

set_option linter.unusedSectionVars false
set_option linter.unusedSimpArgs false

namespace Verif

/-! ### Factors -/

namespace Factor
variable {V S K : Type} [DecidableEq V] [DecidableEq S] [Nonempty S] [Field K] [LinearOrder K] {I : StoreImpl V S (Fl K)}
  {D : V → List S} {f g : Factor I} {φ ψ : (V → S) → K} (hI : I.Lawful)
include hI

theorem Rep.add (hf : Rep D f φ) (hg : Rep D g ψ) :
    ∃ r, f.addition g = .ok r ∧ Rep D r (fun a => φ a + ψ a) ∧
      (∀ v, v ∈ r.vars ↔ v ∈ f.vars ∨ v ∈ g.vars) ∧ ∀ v, v ∈ r.leftVars ↔ v ∈ f.leftVars ∨ v ∈ g.leftVars := by
  have hc := hf.compat hg
  obtain ⟨r, h1, h2, h3, h4, h5⟩ := combine_ok hI (· + ·) hf.wf hg.wf hc
  have hv : ∀ v, v ∈ r.vars ↔ v ∈ f.vars ∨ v ∈ g.vars := by
    intro v; rw [vars, h3]; exact mem_keys_domUnion
  have hd : ∀ p ∈ r.dom, p.2 = D p.1 := by
    intro p hp
    rw [h3] at hp
    rcases mem_domUnion.1 hp with hp | hp
    · exact hf.dom p hp
    · exact hg.dom p hp.1
  refine ⟨r, h1, ⟨h2, hd, fun a ha => ?_⟩, hv, fun v => ?_⟩
  · rw [h5 a (inDom_of_states hd ha), hf.sem a fun v hv' => ha v ((hv v).2 (.inl hv')),
      hg.sem a fun v hv' => ha v ((hv v).2 (.inr hv'))]
    rfl
  · rw [mem_leftVars hI, h4]
    simp only [List.mem_filter, decide_eq_true_eq]
    have a1 : v ∈ f.leftVars → v ∈ f.vars := fun h => ((mem_leftVars hI).1 h).1
    have a2 : v ∈ g.leftVars → v ∈ g.vars := fun h => ((mem_leftVars hI).1 h).1
    rw [hv]
    tauto

theorem Rep.timesScalar (hf : Rep D f φ) (c : K) :
    ∃ r, f.timesScalar (.fin c) = .ok r ∧ Rep D r (fun a => φ a * c) ∧ (∀ v, v ∈ r.vars ↔ v ∈ f.vars) ∧
      ∀ v, v ∈ r.leftVars ↔ v ∈ f.leftVars := by
  obtain ⟨g, g1, g2, g3, g4, g5⟩ := prepareScalar_ok hI f (Fl.fin c)
  have hg : Rep D g fun _ => c := ⟨g2, by simp [g3], fun a _ => g5 a⟩
  obtain ⟨r, h1, h2, h3, h4⟩ := hf.mul hI hg
  have hgv : g.vars = [] := by simp [vars, g3, Dict.keys]
  refine ⟨r, by rw [Factor.timesScalar, g1]; exact h1, h2, fun v => by rw [h3, hgv]; simp, fun v => ?_⟩
  rw [h4, mem_leftVars hI (f := g), hgv]; simp

/-- A factor with the same value everywhere. -/
theorem rep_makeScalar {d : Dom V S} (hd : DomOk d) (hD : ∀ p ∈ d, p.2 = D p.1) (c : K) :
    ∃ r, makeScalar I d (.fin c) none none = .ok r ∧ Rep D r (fun _ => c) ∧ r.dom = d ∧ r.rightVars = [] := by
  obtain ⟨r, h1, h2, h3, h4, h5⟩ := make_ok hI (I := I) (values := List.replicate (cards d).prod (Fl.fin c)) (left := none)
    (right := none) (r := []) hd (by simp) rfl
  refine ⟨r, h1, ⟨h2, by rw [h3]; exact hD, fun a ha => ?_⟩, h3, h4⟩
  have hin : InDom d a := by
    rw [← h3]
    exact inDom_of_states (by rw [h3]; exact hD) ha
  rw [h5 a hin]
  have hlt : ravel (cards d) (coords d a) < (cards d).prod := ravel_lt (validIdx_coords hin)
  simp [List.getD, List.getElem?_replicate, hlt]

/-- Division by the sum over a variable, where that sum is not zero. -/
theorem Rep.divideSum (hf : Rep D f φ) {v : V} (hv : v ∈ f.vars) (hr : ∀ w, w ∈ f.leftVars ↔ w ∈ f.vars)
    (hz : ∀ a, (∀ w ∈ f.vars, a w ∈ D w) → sumOver D [v] φ a ≠ 0) :
    ∃ g r, f.marginalize [v] = .ok g ∧ f.divide g = .ok r ∧ Rep D r (fun a => φ a / sumOver D [v] φ a) ∧
      (∀ w, w ∈ r.vars ↔ w ∈ f.vars) ∧ (∀ w, w ∈ r.rightVars ↔ w ∈ f.vars ∧ w ≠ v) ∧
      (∀ w, w ∈ r.leftVars ↔ w = v) := by
  obtain ⟨g, g1, g2, g3, g4, g5⟩ := hf.marginalize hI (xs := [v]) (by simpa using hv) (by simp)
  have hc := hf.compat g2
  obtain ⟨r, h1, h2, h3, h4, h5⟩ := divideG_ok hI (fun x y => I.divWrap Fl.nanToNum (x / y)) hf.wf g2.wf hc
  have hvr : ∀ w, w ∈ r.vars ↔ w ∈ f.vars := by
    intro w
    rw [vars, h3, mem_keys_domUnion]
    have : w ∈ Dict.keys g.dom ↔ w ∈ f.vars ∧ w ∉ [v] := g4 w
    rw [this]
    show w ∈ f.vars ∨ _ ↔ _
    tauto
  have hd : ∀ p ∈ r.dom, p.2 = D p.1 := by
    intro p hp
    rw [h3] at hp
    rcases mem_domUnion.1 hp with hp | hp
    · exact hf.dom p hp
    · exact g2.dom p hp.1
  have hrv : ∀ w, w ∈ r.rightVars ↔ w ∈ f.vars ∧ w ≠ v := by
    intro w
    rw [h4, List.mem_filter, hvr]
    simp only [decide_eq_true_eq]
    have h1 := hr w
    rw [mem_leftVars hI] at h1
    have h2 := g4 w
    rw [h2, List.mem_singleton]
    tauto
  refine ⟨g, r, g1, h1, ⟨h2, hd, fun a ha => ?_⟩, hvr, hrv, fun w => ?_⟩
  · have ha' : ∀ w ∈ f.vars, a w ∈ D w := fun w hw => ha w ((hvr w).2 hw)
    rw [h5 a (inDom_of_states hd ha), hf.sem a ha', g2.sem a fun w hw => ha' w ((g4 w).1 hw).1, Fl.fin_div (hz a ha')]
    rcases hI.divWrap_or with h | h <;> rw [h]
    rfl
  · rw [mem_leftVars hI, hvr, hrv]
    by_cases e : w = v
    · subst e; simp [hv]
    · simp [e]

end Factor

/-! ### Posteriors -/

variable {V S K : Type} [DecidableEq V] [DecidableEq S] [Nonempty S] [Field K] [LinearOrder K] {vt : VType}

local notation "II" => (storeOf vt : StoreImpl V S (Fl K))

theorem query_model (ch : Choices V) (o : VEObj (Factor II) II) (T : List V) (e : Option (Obs V S)) :
    (o.query ch T e).1.model = o.model := by
  have h : ∀ ev, (o.compile T ev).1.model = o.model := by
    intro ev
    unfold VEObj.compile
    repeat' first | split | dsimp only
    all_goals rfl
  have h' := h (some (e.getD []))
  unfold VEObj.query
  revert h'
  rcases o.compile T (some (e.getD [])) with ⟨o', r⟩
  cases r <;> exact id

theorem query_rep {ch : Choices V} (hch : ch.Ok) (o : VEObj (Factor II) II) {B : BN V S K}
    (hr : Represents o.model B) (hB : B.Valid) (hn : B.Normalised) {T : List V} {ev : Obs V S} (hq : Props.GoodQuery B T ev)
    (hp : B.marg (Dict.keys ev) (asg ev) ≠ 0) :
    ∃ r, (o.query ch T (some ev)).2 = .ok r ∧ (o.query ch T (some ev)).1.model = o.model ∧ Factor.Rep B.states r (B.post T ev) ∧
      (∀ v, v ∈ r.vars ↔ v ∈ T) ∧ ∀ v, v ∈ r.leftVars ↔ v ∈ T := by
  have hI := storeOf_lawful (V := V) (S := S) (α := Fl K) vt
  obtain ⟨r, h1, h2, h3, h4, h5, h6⟩ := Props.C36_exact_posterior hch o hr hB hn hq (e := some ev) rfl hp
  refine ⟨r, h1, ?_, ⟨h2, h3, fun a ha => ?_⟩, h4, h5⟩
  · exact query_model ch o T _
  · set obs : Obs V S := r.vars.map fun v => (v, a v) with hobs
    have hin : InDom r.dom a := Factor.inDom_of_states h3 ha
    have hget : ∀ v ∈ r.vars, Dict.get? obs v = some (a v) := by
      intro v hv
      rw [hobs, Dict.get?_map, if_pos hv]
    have hfull : FullObs r.dom obs := fullObs_of_covers hin fun v hv => hget v hv
    have hag : ∀ v ∈ r.vars, (asg obs : V → S) v = a v := fun v hv => by rw [asg, over_of_get? (hget v hv)]
    have h := h6 obs hfull
    rw [Factor.getValue_full hI h2 hfull, Factor.WF.sem_congr hI h2 hag] at h
    injection h with h
    rw [h, BN.post, asg_append]
    congr 2
    · refine hB.marg_dep _ _ _ (over_agree fun v hv => hag v ((h4 v).2 hv))
    · refine hB.marg_dep _ _ _ fun v hv => ?_
      exact over_agree (vs := []) (by simp) v (by simpa using hv)


/-! ### Models -/

theorem IsTable.fits {I : StoreImpl V S (Fl K)} {B : BN V S K} {v : V} {f : Factor I} (h : IsTable B v f) {g : DiGraph V}
    (hv : v ∈ g.nodes) (hp : ∀ p, p ∈ B.parents v ↔ (p, v) ∈ g.edges) : DagModel.Fits g B.states v f where
  node := hv
  right := ⟨fun w hw => (h.right w).2 ((hp w).2 (DiGraph.mem_pred.1 hw)),
    fun w hw => DiGraph.mem_pred.2 ((hp w).1 ((h.right w).1 hw))⟩
  left := ⟨fun w hw => (h.left w).2 (by simpa using hw), fun w hw => by simpa using (h.left w).1 hw⟩
  dom := h.dom
  mem := (h.vars v).2 (.inl rfl)

/-- `BayesianNetwork(g, fs)` with a dictionary of tables. -/
theorem DagModel.ofDict_factors {I : StoreImpl V S (Fl K)} {B : BN V S K} (hB : B.Valid) {g : DiGraph V} (hg : g.WF)
    (hgn : g.nodes = B.nodes)
    (hp : ∀ v ∈ B.nodes, ∀ p, p ∈ B.parents v ↔ (p, v) ∈ g.edges) {l : List (V × Factor I)}
    (hk : (Dict.keys l).Perm B.nodes) (ht : ∀ p ∈ l, IsTable B p.1 p.2) (check : Bool) :
    DagModel.ofDict g (l.map fun p => (p.1, some p.2)) check = .ok (DagModel.after g B.states check l) ∧
      Represents (I := I) (DagModel.after g B.states check l) B := by
  have hmem : ∀ p ∈ l, p.1 ∈ B.nodes := fun p hp => hk.mem_iff.1 (Dict.mem_keys_of_mem hp)
  have hacy : g.Acyclic := by
    intro v hv
    refine hB.acyclic v (Relation.TransGen.mono (fun u w huw => ?_) _ _ hv)
    have hw : w ∈ B.nodes := by rw [← hgn]; exact (hg.ends _ huw).2
    exact ⟨hw, (hp w hw u).2 huw⟩
  constructor
  · rw [DagModel.ofDict, DagModel.init_ok hg hacy, ← DagModel.after_nil g B.states check, py_ok_bind, DagModel.setFactorsDict,
      List.foldlM_map]
    exact DagModel.setAll (fs := []) l (fun p hpm => (ht p hpm).fits (by rw [hgn]; exact hmem p hpm) (hp p.1 (hmem p hpm)))
      (hk.nodup_iff.2 hB.nodes)
  · refine ⟨hg, hgn, hp, ?_, fun v hv => ?_⟩
    · simp [DagModel.after, Dict.keys, List.map_map, Function.comp_def]
    · obtain ⟨f, hf⟩ := Option.isSome_iff_exists.1 (Dict.get?_isSome.2 (hk.mem_iff.2 hv))
      refine ⟨f, f, ?_, rfl, ht _ (Dict.mem_of_get? hf)⟩
      simp only [DagModel.after]
      rw [Dict.get?_map, if_pos (by rw [hgn]; exact hv), hf]

/-- The factors of a model, as a list. -/
theorem Represents.slots {I : StoreImpl V S (Fl K)} {m : DagModel (Factor I) V S} {B : BN V S K} (h : Represents m B) (hB : B.Valid) :
    ∃ l : List (V × Factor I), m.factors = l.map (fun p => (p.1, some p.2)) ∧ Dict.keys l = B.nodes ∧
      ∀ p ∈ l, IsTable B p.1 p.2 := by
  have hnd : (Dict.keys m.factors).Nodup := by rw [h.keys, h.nodes]; exact hB.nodes
  have hex : ∀ q ∈ m.factors, ∃ f, q.2 = some f ∧ IsTable B q.1 f := by
    intro q hq
    have hv : q.1 ∈ B.nodes := by rw [← h.nodes, ← h.keys]; exact Dict.mem_keys_of_mem hq
    obtain ⟨f, g, h1, h2, h3⟩ := h.table q.1 hv
    injection h2 with h2
    subst h2
    have := Dict.get?_of_mem (k := q.1) (v := q.2) hnd hq
    rw [h1] at this
    injection this with this
    exact ⟨f, this.symm, h3⟩
  have key : ∀ fs : List (V × Option (Factor I)), (∀ q ∈ fs, ∃ f, q.2 = some f ∧ IsTable B q.1 f) →
      ∃ l : List (V × Factor I), fs = l.map (fun p => (p.1, some p.2)) ∧ Dict.keys l = Dict.keys fs ∧ ∀ p ∈ l, IsTable B p.1 p.2 := by
    intro fs
    induction fs with
    | nil => intro _; exact ⟨[], rfl, rfl, by simp⟩
    | cons q fs ih =>
      intro hq
      obtain ⟨l, h1, h2, h3⟩ := ih fun q hq' => hq q (List.mem_cons_of_mem _ hq')
      obtain ⟨f, h4, h5⟩ := hq q List.mem_cons_self
      refine ⟨(q.1, f) :: l, ?_, ?_, ?_⟩
      · rw [List.map_cons, ← h1, ← h4]
      · rw [Dict.keys_cons, Dict.keys_cons, h2]
      · intro p hp
        rcases List.mem_cons.1 hp with rfl | hp
        · exact h5
        · exact h3 p hp
  obtain ⟨l, h1, h2, h3⟩ := key m.factors hex
  exact ⟨l, h1, by rw [h2, h.keys, h.nodes], h3⟩

/-- `model.copy()` -/
theorem Represents.copy {I : StoreImpl V S (Fl K)} {m : DagModel (Factor I) V S} {B : BN V S K} (h : Represents m B) (hB : B.Valid) :
    ∃ m', DagModel.ofDict m.graph m.factors true = .ok m' ∧ Represents m' B ∧ m'.graph = m.graph ∧ m'.factors = m.factors ∧
      ∀ v ∈ B.nodes, Dict.get? m'.domains v = some (some (B.states v)) := by
  obtain ⟨l, h1, h2, h3⟩ := h.slots hB
  obtain ⟨e1, e2⟩ := DagModel.ofDict_factors hB h.wf h.nodes h.parents (by rw [h2]) h3 true
  rw [← h1] at e1
  haveI : Inhabited S := ⟨Classical.arbitrary S⟩
  refine ⟨_, e1, e2, rfl, ?_, fun v hv => ?_⟩
  · rw [SCM.after_factors (by rw [h.nodes]; exact hB.nodes) (by rw [h.nodes, h2]), h1]
  · simp only [DagModel.after]
    rw [Dict.get?_map, if_pos (by rw [h.nodes]; exact hv), if_pos (by rw [h2]; exact hv)]


/-! ### One step -/

theorem BN.post_congr {B : BN V S K} {T T' : List V} (h : ∀ v, v ∈ T ↔ v ∈ T') (o : Obs V S) : B.post T o = B.post T' o := by
  funext a
  rw [BN.post, BN.post, BN.marg_congr_set (vs := T ++ Dict.keys o) (ws := T' ++ Dict.keys o) fun v _ => by simp [h v]]

namespace EM

/-- `get_parents` of one node -/
theorem parents_ok {F : Type} {m : DagModel F V S} {B : BN V S K} (hB : B.Valid) (hn : m.graph.nodes = B.nodes)
    (hp : ∀ v ∈ B.nodes, ∀ p, p ∈ B.parents v ↔ (p, v) ∈ m.graph.edges) {v : V} (hv : v ∈ B.nodes) :
    ∃ pa, m.getParents [v] = .ok pa ∧ (v :: pa).Nodup ∧ ∀ w, w ∈ pa ↔ w ∈ B.parents v := by
  refine ⟨([m.graph.pred v].flatten.reverse.dedup).reverse, ?_, ?_, ?_⟩
  · simp [DagModel.getParents, DiGraph.predecessors, hn, hv]
  · rw [List.nodup_cons]
    refine ⟨fun hc => ?_, List.nodup_reverse.2 (List.nodup_dedup _)⟩
    simp only [List.flatten_cons, List.flatten_nil, List.append_nil, List.mem_reverse, List.mem_dedup, DiGraph.mem_pred] at hc
    exact hB.acyclic v (.single ⟨hv, (hp v hv v).2 hc⟩)
  · intro w
    simp only [List.flatten_cons, List.flatten_nil, List.append_nil, List.mem_reverse, List.mem_dedup, DiGraph.mem_pred]
    exact (hp v hv w).symm

/-- What is needed of the prior: its graph and its domains. -/
structure PriorOk {I : StoreImpl V S (Fl K)} (m : DagModel (Factor I) V S) (B : BN V S K) : Prop where
  nodes : m.graph.nodes = B.nodes
  parents : ∀ v ∈ B.nodes, ∀ p, p ∈ B.parents v ↔ (p, v) ∈ m.graph.edges
  domains : ∀ v ∈ B.nodes, Dict.get? m.domains v = some (some (B.states v))

theorem zeroCounts_ok {m : DagModel (Factor II) V S} {B : BN V S K} (hB : B.Valid) (hm : PriorOk m B) {v : V} (hv : v ∈ B.nodes) :
    ∃ r, zeroCounts m v = .ok r ∧ Factor.Rep B.states r (fun _ => 0) ∧ (∀ w, w ∈ r.vars ↔ w ∈ v :: B.parents v) ∧
      ∀ w, w ∈ r.leftVars ↔ w ∈ r.vars := by
  have hI := storeOf_lawful (V := V) (S := S) (α := Fl K) vt
  obtain ⟨pa, h1, h2, h3⟩ := parents_ok hB hm.nodes hm.parents hv
  have hmem : ∀ w ∈ v :: pa, w ∈ B.nodes := by
    intro w hw
    rcases List.mem_cons.1 hw with rfl | hw
    · exact hv
    · exact hB.parents v hv w ((h3 w).1 hw)
  have h4 : (v :: pa).mapM (stateList m) = .ok ((v :: pa).map fun w => (w, B.states w)) := by
    refine mapM_ok fun w hw => ?_
    rw [stateList, Dict.get, hm.domains w (hmem w hw)]
    rfl
  have hkeys : Dict.keys ((v :: pa).map fun w => (w, B.states w)) = v :: pa := by
    simp [Dict.keys, List.map_map, Function.comp_def]
  obtain ⟨r, g1, g2, g3, g4⟩ := Factor.rep_makeScalar hI (I := II) (D := B.states) (d := (v :: pa).map fun w => (w, B.states w))
    ⟨by rw [hkeys]; exact h2, fun p hp => by
      obtain ⟨w, hw, rfl⟩ := List.mem_map.1 hp; exact hB.nodupStates w (hmem w hw), fun p hp => by
      obtain ⟨w, hw, rfl⟩ := List.mem_map.1 hp; exact hB.nonempty w (hmem w hw)⟩
    (fun p hp => by obtain ⟨w, _, rfl⟩ := List.mem_map.1 hp; rfl) 0
  refine ⟨r, ?_, g2, fun w => ?_, fun w => ?_⟩
  · rw [zeroCounts, h1, py_ok_bind, h4, py_ok_bind, g1]
  · rw [Factor.vars, g3, hkeys, List.mem_cons, List.mem_cons, h3]
  · rw [Factor.mem_leftVars hI, g4]; simp

/-- The observations from which `v` is learnt can be used: something of `v` and its parents is hidden, the values are
states of the nodes and the observation is possible. -/
structure ObsOk (B : BN V S K) (v : V) (o : Obs V S) : Prop where
  hidden : B.hidden v o ≠ []
  evidence : EvOk B o
  possible : B.marg (Dict.keys o) (asg o) ≠ 0

theorem addCounts_ok {ch : Choices V} (hch : ch.Ok) {m : DagModel (Factor II) V S} {B : BN V S K} (hr : Represents m B)
    (hB : B.Valid) (hn : B.Normalised) {v : V} (hv : v ∈ B.nodes) {pa : List V} (hpn : (v :: pa).Nodup)
    (hpa : ∀ w, w ∈ pa ↔ w ∈ B.parents v) (oc : List (Obs V S × ℕ)) (hoc : ∀ p ∈ oc, ObsOk B v p.1)
    (st : VEObj (Factor II) II × Factor II) (hst : st.1.model = m) {φ : (V → S) → K} (hφ : Factor.Rep B.states st.2 φ)
    (hvars : ∀ w, w ∈ st.2.vars ↔ w ∈ v :: B.parents v) (hleft : ∀ w, w ∈ st.2.leftVars ↔ w ∈ st.2.vars) :
    ∃ st', oc.foldlM (addCounts ch v pa) st = .ok st' ∧ st'.1.model = m ∧
      Factor.Rep B.states st'.2 (fun a => φ a + B.expCount v oc a) ∧
      (∀ w, w ∈ st'.2.vars ↔ w ∈ v :: B.parents v) ∧ ∀ w, w ∈ st'.2.leftVars ↔ w ∈ st'.2.vars := by
  have hI := storeOf_lawful (V := V) (S := S) (α := Fl K) vt
  induction oc generalizing st φ with
  | nil => exact ⟨st, rfl, hst, hφ.congr fun a _ => by simp [BN.expCount], hvars, hleft⟩
  | cons p oc ih =>
    have hp := hoc p List.mem_cons_self
    set T := (v :: pa).filter fun x => x ∉ Dict.keys p.1 with hT
    have hTm : ∀ w, w ∈ T ↔ w ∈ B.hidden v p.1 := by
      intro w; simp [hT, BN.hidden, hpa]
    have hTs : ∀ w ∈ T, w ∈ v :: B.parents v := fun w hw => (List.mem_filter.1 ((hTm w).1 hw)).1
    have hq : Props.GoodQuery B T p.1 := by
      refine ⟨fun hc => hp.hidden ?_, hpn.filter _, fun t ht => ?_, hp.evidence, fun t ht => ?_⟩
      · refine List.eq_nil_iff_forall_not_mem.2 fun w hw => ?_
        have := (hTm w).2 hw
        rw [hc] at this; cases this
      · rcases List.mem_cons.1 (hTs t ht) with rfl | h
        · exact hv
        · exact hB.parents v hv t h
      · simpa using (List.mem_filter.1 ht).2
    obtain ⟨r, r1, r2, r3, r4, r5⟩ := query_rep hch st.1 (hst ▸ hr) hB hn hq hp.possible
    obtain ⟨e, e1, e2, e3, e4⟩ := r3.timesScalar hI (p.2 : K)
    obtain ⟨f, f1, f2, f3, f4⟩ := hφ.add hI e2
    have hstep : addCounts ch v pa st p = .ok ((st.1.query ch T (some p.1)).1, f) := by
      rw [addCounts]
      simp only [← hT, r1, py_ok_bind, e1, f1]
      rfl
    have hfv : ∀ w, w ∈ f.vars ↔ w ∈ v :: B.parents v := by
      intro w
      rw [f3, e3, r4, hvars]
      exact ⟨fun h => h.elim id (hTs w), .inl⟩
    have hfl : ∀ w, w ∈ f.leftVars ↔ w ∈ f.vars := by
      intro w
      rw [f4, hleft, f3, e4, r5, e3, r4]
    obtain ⟨st', s1, s2, s3, s4, s5⟩ := ih (fun q hq => hoc q (List.mem_cons_of_mem _ hq))
      ((st.1.query ch T (some p.1)).1, f) (by rw [r2, hst]) f2 hfv hfl
    refine ⟨st', ?_, s2, s3.congr fun a _ => ?_, s4, s5⟩
    · rw [List.foldlM_cons, hstep]; exact s1
    · rw [BN.expCount, BN.expCount, List.map_cons, List.sum_cons, BN.post_congr hTm, add_assoc]

theorem expectation_ok {ch : Choices V} (hch : ch.Ok) {s : EM II} {B : BN V S K} (hr : Represents s.model B)
    (hB : B.Valid) (hn : B.Normalised) (hp : PriorOk s.prior B) (ht : ∀ v ∈ s.trainable, v ∈ B.nodes)
    (oc : V → List (Obs V S × ℕ)) (hoc : ∀ v ∈ todo ch s, obsCounts s.model.graph s.data v = .ok (oc v))
    (ho : ∀ v ∈ todo ch s, ∀ p ∈ oc v, ObsOk B v p.1) :
    ∃ l, expectation ch s = .ok l ∧ Dict.keys l = todo ch s ∧ ∀ p ∈ l, Factor.Rep B.states p.2 (B.expCount p.1 (oc p.1)) ∧
      (∀ w, w ∈ p.2.vars ↔ w ∈ p.1 :: B.parents p.1) ∧ ∀ w, w ∈ p.2.leftVars ↔ w ∈ p.2.vars := by
  have hz : ∀ v : V, ∃ r : Factor II, v ∈ B.nodes → zeroCounts s.prior v = .ok r ∧ Factor.Rep B.states r (fun _ => 0) ∧
      (∀ w, w ∈ r.vars ↔ w ∈ v :: B.parents v) ∧ ∀ w, w ∈ r.leftVars ↔ w ∈ r.vars := by
    intro v
    by_cases hv : v ∈ B.nodes
    · obtain ⟨r, h⟩ := zeroCounts_ok hB hp hv
      exact ⟨r, fun _ => h⟩
    · obtain ⟨r, _⟩ := Factor.rep_makeScalar (storeOf_lawful (V := V) (S := S) (α := Fl K) vt) (D := B.states) DomOk.nil (by simp) 0
      exact ⟨r, fun h => absurd h hv⟩
  choose z hz using hz
  have hp0 : (s.trainable.mapM fun v => do
      let f ← zeroCounts s.prior v
      return (v, f)) = .ok (s.trainable.map fun v => (v, z v)) :=
    mapM_ok fun v hv => by rw [(hz v (ht v hv)).1]; rfl
  have htodo : ∀ v ∈ todo ch s, v ∈ s.trainable := by
    intro v hv
    exact (List.mem_filter.1 (((hch.setOrd _).2 v).1 hv)).1
  have key : ∀ (vs : List V), (∀ v ∈ vs, v ∈ todo ch s) → ∀ (st : VEObj (Factor II) II × List (V × Factor II)),
      st.1.model = s.model → ∃ st', vs.foldlM (fun (st : VEObj (Factor II) II × List (V × Factor II)) v => do
        let oc ← obsCounts s.model.graph s.data v
        let pa ← s.prior.getParents [v]
        let f0 ← Dict.get (s.trainable.map fun v => (v, z v)) v
        let q ← oc.foldlM (addCounts ch v pa) (st.1, f0)
        return (q.1, st.2 ++ [(v, q.2)])) st = .ok st' ∧
      ∃ l, st'.2 = st.2 ++ l ∧ Dict.keys l = vs ∧ ∀ p ∈ l, Factor.Rep B.states p.2 (B.expCount p.1 (oc p.1)) ∧
      (∀ w, w ∈ p.2.vars ↔ w ∈ p.1 :: B.parents p.1) ∧ ∀ w, w ∈ p.2.leftVars ↔ w ∈ p.2.vars := by
    intro vs
    induction vs with
    | nil => intro _ st _; exact ⟨st, rfl, [], by simp, rfl, by simp⟩
    | cons v vs ih =>
      intro hvs st hst
      have hv := hvs v List.mem_cons_self
      have hvt := htodo v hv
      have hvn := ht v hvt
      obtain ⟨pa, a1, a2, a3⟩ := parents_ok hB hp.nodes hp.parents hvn
      obtain ⟨_, z2, z3, z4⟩ := hz v hvn
      obtain ⟨q, q1, q2, q3, q4, q5⟩ := addCounts_ok hch hr hB hn hvn a2 a3 (oc v) (ho v hv) (st.1, z v) hst z2 z3 z4
      obtain ⟨st', s1, l, s2, s3, s4⟩ := ih (fun w hw => hvs w (List.mem_cons_of_mem _ hw)) (q.1, st.2 ++ [(v, q.2)]) q2
      refine ⟨st', ?_, (v, q.2) :: l, ?_, ?_, ?_⟩
      · rw [List.foldlM_cons, hoc v hv, py_ok_bind, a1, py_ok_bind, Dict.get, Dict.get?_map, if_pos hvt]
        simp only [py_ok_bind, q1]
        exact s1
      · rw [s2]; simp
      · rw [Dict.keys_cons, s3]
      · intro p hp
        rcases List.mem_cons.1 hp with rfl | hp
        · exact ⟨q3.congr fun a _ => by simp, q4, q5⟩
        · exact s4 p hp
  obtain ⟨st', h1, l, h2, h3, h4⟩ := key (todo ch s) (fun _ h => h) (VEObj.new s.model, []) rfl
  refine ⟨l, ?_, h3, h4⟩
  rw [expectation, hp0, py_ok_bind, h1, py_ok_bind, h2]
  rfl


theorem maximization_ok {B : BN V S K} (hB : B.Valid) {vs : List V} {N : V → (V → S) → K} (l : List (V × Factor II))
    (hl : ∀ p ∈ l, p.1 ∈ vs ∧ p.1 ∈ B.nodes ∧ Factor.Rep B.states p.2 (N p.1) ∧ (∀ w, w ∈ p.2.vars ↔ w ∈ p.1 :: B.parents p.1) ∧
      ∀ w, w ∈ p.2.leftVars ↔ w ∈ p.2.vars)
    (hz : ∀ p ∈ l, ∀ a, (∀ w ∈ p.1 :: B.parents p.1, a w ∈ B.states w) → ((B.states p.1).map fun s => N p.1 (upd a p.1 s)).sum ≠ 0) :
    ∃ l', maximization l = .ok l' ∧ Dict.keys l' = Dict.keys l ∧ ∀ p ∈ l', IsTable (B.reest vs N) p.1 p.2 := by
  have hI := storeOf_lawful (V := V) (S := S) (α := Fl K) vt
  induction l with
  | nil => exact ⟨[], rfl, rfl, by simp⟩
  | cons p l ih =>
    obtain ⟨l', h1, h2, h3⟩ := ih (fun q hq => hl q (List.mem_cons_of_mem _ hq)) fun q hq => hz q (List.mem_cons_of_mem _ hq)
    obtain ⟨g1, g2, g3, g4, g5⟩ := hl p List.mem_cons_self
    obtain ⟨g, r, r1, r2, r3, r4, r5, r6⟩ := g3.divideSum hI ((g4 p.1).2 List.mem_cons_self) g5 fun a ha =>
      hz p List.mem_cons_self a fun w hw => ha w ((g4 w).2 hw)
    have hnp : p.1 ∉ B.parents p.1 := fun hc => hB.acyclic p.1 (.single ⟨g2, hc⟩)
    have ht : IsTable (B.reest vs N) p.1 r := by
      refine ⟨r3.wf, r6, fun w => ?_, fun w => ?_, r3.dom, fun obs hobs => ?_⟩
      · rw [r5, g4, List.mem_cons]
        show _ ↔ w ∈ B.parents p.1
        constructor
        · rintro ⟨h | h, h'⟩
          · exact absurd h h'
          · exact h
        · intro h
          exact ⟨.inr h, fun e => hnp (e ▸ h)⟩
      · rw [r4, g4, List.mem_cons]; rfl
      · rw [r3.getValue hI hobs]
        show _ = Except.ok (Fl.fin (if p.1 ∈ vs then _ else _))
        rw [if_pos g1]
        rfl
    refine ⟨(p.1, r) :: l', ?_, ?_, ?_⟩
    · rw [maximization, List.mapM_cons, r1, py_ok_bind, r2, py_ok_bind]
      rw [maximization] at h1
      rw [h1]
      rfl
    · rw [Dict.keys_cons, Dict.keys_cons, h2]
    · intro q hq
      rcases List.mem_cons.1 hq with rfl | hq
      · exact ht
      · exact h3 q hq

theorem _root_.Verif.BN.Valid.reest {B : BN V S K} (hB : B.Valid) {vs : List V} {N : V → (V → S) → K}
    (hN : ∀ v ∈ vs, DependsOn (N v) (v :: B.parents v)) : (B.reest vs N).Valid where
  nodes := hB.nodes
  parents := hB.parents
  acyclic := hB.acyclic
  nodupStates := hB.nodupStates
  nonempty := hB.nonempty
  scope := by
    intro v hv a b hab
    show (if v ∈ vs then _ else _) = if v ∈ vs then _ else _
    by_cases h : v ∈ vs
    · rw [if_pos h, if_pos h, hN v h a b hab]
      congr 2
      refine List.map_congr_left fun s _ => hN v h _ _ fun w hw => ?_
      by_cases e : w = v
      · subst e; simp
      · rw [upd_ne _ _ e, upd_ne _ _ e]; exact hab w hw
    · rw [if_neg h, if_neg h]; exact hB.scope v hv a b hab

theorem _root_.Verif.BN.Valid.expCount_dep {B : BN V S K} (hB : B.Valid) (v : V) (oc : List (Obs V S × ℕ)) :
    DependsOn (B.expCount v oc) (v :: B.parents v) := by
  intro a b hab
  rw [BN.expCount, BN.expCount]
  congr 1
  refine List.map_congr_left fun p _ => ?_
  congr 1
  rw [BN.post, BN.post]
  congr 1
  · refine hB.marg_dep _ _ _ (over_agree fun w hw => hab w (List.mem_filter.1 hw).1)
  · refine hB.marg_dep _ _ _ fun w hw => ?_
    exact over_agree (vs := []) (by simp) w (by simpa using hw)

theorem updateModel_ok {m : DagModel (Factor II) V S} {B B' : BN V S K} (hr : Represents m B) (hB' : B'.Valid)
    (hn : B'.nodes = B.nodes) (hpa : B'.parents = B.parents) (hst : B'.states = B.states)
    {new : List (V × Factor II)} (hk : (Dict.keys new).Nodup) (hkn : ∀ v ∈ Dict.keys new, v ∈ B.nodes)
    (ht : ∀ p ∈ new, IsTable B' p.1 p.2) (hsame : ∀ v ∈ B.nodes, v ∉ Dict.keys new → B'.table v = B.table v) :
    ∃ m', updateModel m new = .ok m' ∧ Represents m' B' ∧ m'.graph = m.graph ∧
      (∀ v ∈ B.nodes, v ∉ Dict.keys new → Dict.get? m'.factors v = Dict.get? m.factors v) ∧
      ∀ v ∈ B.nodes, Dict.get? m'.domains v = some (some (B.states v)) := by
  have hex : ∀ vs : List V, (∀ v ∈ vs, v ∈ B.nodes ∧ v ∉ Dict.keys new) → ∃ l : List (V × Factor II),
      (vs.mapM fun v => do
        let f ← Dict.get m.factors v
        return (v, f)) = .ok (l.map fun p => (p.1, some p.2)) ∧ Dict.keys l = vs ∧ (∀ p ∈ l, IsTable B' p.1 p.2) ∧
      ∀ p ∈ l, Dict.get? m.factors p.1 = some (some p.2) := by
    intro vs
    induction vs with
    | nil => intro _; exact ⟨[], rfl, rfl, by simp, by simp⟩
    | cons v vs ih =>
      intro hvs
      obtain ⟨l, h1, h2, h3, h4⟩ := ih fun w hw => hvs w (List.mem_cons_of_mem _ hw)
      obtain ⟨hv1, hv2⟩ := hvs v List.mem_cons_self
      obtain ⟨f, g, f1, f2, f3⟩ := hr.table v hv1
      injection f2 with f2
      subst f2
      have ht' : IsTable B' v f :=
        ⟨f3.wf, f3.left, fun w => by rw [hpa]; exact f3.right w, fun w => by rw [hpa]; exact f3.vars w,
          fun p hp => by rw [hst]; exact f3.dom p hp, fun obs ho => by rw [hsame v hv1 hv2]; exact f3.value obs ho⟩
      refine ⟨(v, f) :: l, ?_, by rw [Dict.keys_cons, h2], ?_, ?_⟩
      · rw [List.mapM_cons, h1, Dict.get, f1]; rfl
      · intro p hp
        rcases List.mem_cons.1 hp with rfl | hp
        · exact ht'
        · exact h3 p hp
      · intro p hp
        rcases List.mem_cons.1 hp with rfl | hp
        · exact f1
        · exact h4 p hp
  have hfm : ∀ v ∈ m.graph.nodes.filter (fun v => v ∉ Dict.keys new), v ∈ B.nodes ∧ v ∉ Dict.keys new := by
    intro v hv
    rw [mem_filter_not, hr.nodes] at hv
    exact hv
  obtain ⟨l, h1, h2, h3, h4⟩ := hex _ hfm
  have hkeys : (Dict.keys (new ++ l)).Perm B'.nodes := by
    rw [Dict.keys_append, h2, hn, ← hr.nodes]
    refine (List.perm_ext_iff_of_nodup ?_ hr.wf.nodes).2 fun v => ?_
    · refine List.nodup_append.2 ⟨hk, hr.wf.nodes.filter _, ?_⟩
      intro x hx y hy e
      exact ((mem_filter_not _ _ _).1 hy).2 (e ▸ hx)
    · rw [List.mem_append, mem_filter_not]
      constructor
      · rintro (h | h)
        · rw [hr.nodes]; exact hkn v h
        · exact h.1
      · intro h
        by_cases h' : v ∈ Dict.keys new
        · exact .inl h'
        · exact .inr ⟨h, h'⟩
  obtain ⟨e1, e2⟩ := DagModel.ofDict_factors (l := new ++ l) hB' hr.wf (by rw [hr.nodes, hn])
    (by rw [hn, hpa]; exact hr.parents) hkeys (by
      intro p hp
      rcases List.mem_append.1 hp with hp | hp
      · exact ht p hp
      · exact h3 p hp) false
  have hln : (Dict.keys (new ++ l)).Nodup := hkeys.nodup_iff.2 hB'.nodes
  refine ⟨_, ?_, e2, rfl, fun v hv hvn => ?_, fun v hv => ?_⟩
  · rw [updateModel, h1, py_ok_bind, ← List.map_append, e1]
  · simp only [DagModel.after]
    have hvl : v ∈ Dict.keys l := by
      rw [h2, mem_filter_not, hr.nodes]; exact ⟨hv, hvn⟩
    obtain ⟨f, hf⟩ := Dict.mem_keys.1 hvl
    rw [Dict.get?_map, if_pos (by rw [hr.nodes]; exact hv), h4 _ hf]
    rw [Dict.get?_of_mem (k := v) (v := f) hln (List.mem_append_right _ hf)]
  · simp only [DagModel.after]
    rw [Dict.get?_map, if_pos (by rw [hr.nodes]; exact hv), if_pos (by rw [hkeys.mem_iff, hn]; exact hv), hst]

/-- One step: the tables of the variables that are treated become those of the expected counts. -/
theorem update_ok {ch : Choices V} (hch : ch.Ok) {s : EM II} {B : BN V S K} (hr : Represents s.model B)
    (hB : B.Valid) (hn : B.Normalised) (hp : PriorOk s.prior B) (ht : ∀ v ∈ s.trainable, v ∈ B.nodes)
    (oc : V → List (Obs V S × ℕ)) (hoc : ∀ v ∈ todo ch s, obsCounts s.model.graph s.data v = .ok (oc v))
    (ho : ∀ v ∈ todo ch s, ∀ p ∈ oc v, ObsOk B v p.1)
    (hz : ∀ v ∈ todo ch s, ∀ a, (∀ w ∈ v :: B.parents v, a w ∈ B.states w) →
      ((B.states v).map fun x => B.expCount v (oc v) (upd a v x)).sum ≠ 0) :
    ∃ m', update ch s = .ok { s with model := m' } ∧
      Represents m' (B.reest (todo ch s) fun v => B.expCount v (oc v)) ∧
      (B.reest (todo ch s) fun v => B.expCount v (oc v)).Valid ∧ m'.graph = s.model.graph ∧
      (∀ v ∈ B.nodes, v ∉ todo ch s → Dict.get? m'.factors v = Dict.get? s.model.factors v) ∧
      ∀ v ∈ B.nodes, Dict.get? m'.domains v = some (some (B.states v)) := by
  obtain ⟨l, l1, l2, l3⟩ := expectation_ok hch hr hB hn hp ht oc hoc ho
  have htodo : ∀ v ∈ todo ch s, v ∈ B.nodes := by
    intro v hv
    exact ht v (List.mem_filter.1 (((hch.setOrd _).2 v).1 hv)).1
  have hmem : ∀ p ∈ l, p.1 ∈ todo ch s := fun p hp => by rw [← l2]; exact Dict.mem_keys_of_mem hp
  obtain ⟨new, n1, n2, n3⟩ := maximization_ok hB (vs := todo ch s) (N := fun v => B.expCount v (oc v)) l
    (fun p hp => ⟨hmem p hp, htodo _ (hmem p hp), l3 p hp⟩) fun p hp => hz p.1 (hmem p hp)
  have hB' := hB.reest (vs := todo ch s) (N := fun v => B.expCount v (oc v)) fun v _ => hB.expCount_dep v (oc v)
  obtain ⟨m', m1, m2, m3, m4, m5⟩ := updateModel_ok hr hB' rfl rfl rfl (new := new)
    (by rw [n2, l2]; exact (hch.setOrd _).1) (by rw [n2, l2]; exact htodo) n3 (by
      intro v _ hv
      rw [n2, l2] at hv
      funext a
      exact if_neg hv)
  refine ⟨m', ?_, m2, hB', m3, fun v hv hvt => m4 v hv (by rw [n2, l2]; exact hvt), m5⟩
  rw [update, l1, py_ok_bind, n1, py_ok_bind, m1, py_ok_bind]
  rfl

end EM
end Verif
