import Verif.Model.QNetLemmas
import Verif.Net.Frequencies
import Verif.Spec.Component
import Verif.Props.Data
import Verif.Props.Inference
import Verif.Props.Components
import Verif.Props.Gradient

/-!
# Likelihood over the decomposition graph (C49)
-/

set_option linter.unusedSectionVars false
set_option linter.unusedSimpArgs false

namespace Verif.Props
open Verif Relation

section
variable {V S : Type} [DecidableEq V] [DecidableEq S] [Inhabited S]

/-! ### Specification -/

/-- `P(v | pa)` in a network, at the values of `a` -/
def condProb {K : Type} [Field K] (B : BN V S K) (v : V) (pa : List V) (a : V → S) : K := B.marg (v :: pa) a / B.marg pa a

/-- Among the records that agree with `a` on `pa`, the part that agrees on `v`, too -/
def frequency (K : Type) [Field K] (fr : Frame V S) (v : V) (pa : List V) (a : V → S) : K :=
  ((numRows fr fun r => AgreesOn r (v :: pa) a : ℕ) : K) / ((numRows fr fun r => AgreesOn r pa a : ℕ) : K)

/-- The log-likelihood of the records: a sum over the variables of the logarithms of the entries `x v a` at the values `a` of each
record -/
def recordsLik {K R : Type} [Field R] (log : K → R) (vs : List V) (fr : Frame V S) (x : V → (V → S) → K) : R :=
  (vs.map fun v => (fr.rows.map fun r => log (x v (Rec.asg r))).sum).sum

/-- Every record has a state of each of the variables `vs`. -/
structure CompleteOn {K : Type} (B : BN V S K) (vs : List V) (fr : Frame V S) : Prop where
  wf : fr.WF
  cols : ∀ v ∈ vs, v ∈ fr.cols
  states : ∀ r ∈ fr.rows, ∀ v ∈ vs, Rec.asg r v ∈ B.states v ∧ (v, some (Rec.asg r v)) ∈ r

/-- The variables whose factors are used: all when none is given -/
def usedVars (q : DiGraph V) (vs : List V) : List V := if vs = [] then q.nodes else vs

theorem usedVars_mem {q : DiGraph V} {vs : List V} (h : ∀ v ∈ vs, v ∈ q.nodes) : ∀ v ∈ usedVars q vs, v ∈ q.nodes := by
  rw [usedVars]; split
  · exact fun _ h => h
  · exact h

/-! ### Records -/

theorem rec_get? {cols : List V} (hn : cols.Nodup) {r : Rec V S} (hk : Dict.keys r = cols) {v : V} {s : S} (h : (v, some s) ∈ r) :
    Dict.get? (Rec.obs r) v = some s := by
  have hnd : (Dict.keys (Rec.obs r)).Nodup := by
    have hsub : (Dict.keys (Rec.obs r)).Sublist (Dict.keys r) := by
      clear h hk
      induction r with
      | nil => exact .slnil
      | cons p r ih =>
        rw [Rec.obs, List.filterMap_cons]
        cases hp : p.2 with
        | none => exact ih.trans (List.sublist_cons_self _ _)
        | some s => exact ih.cons_cons _
    exact (hk ▸ hn : (Dict.keys r).Nodup).sublist hsub
  refine Dict.get?_of_mem hnd ?_
  exact List.mem_filterMap.2 ⟨(v, some s), h, rfl⟩

variable {K : Type} [Field K] [LinearOrder K] {vt : VType}

local notation "II" => (storeOf vt : StoreImpl V S (Fl K))
local notation "LL" => (labelStoreOf vt : LabelStore V S)

theorem mapM_all {X Y : Type} {f : X → Py Y} {l : List X} {ys : List Y} (h : l.mapM f = .ok ys) : ∀ x ∈ l, ∃ y, f x = .ok y ∧ y ∈ ys := by
  induction l generalizing ys with
  | nil => simp
  | cons a l ih =>
    rw [List.mapM_cons] at h
    rcases ha : f a with e | y
    · rw [ha] at h; cases h
    · rw [ha, py_ok_bind] at h
      rcases hl : l.mapM f with e | zs
      · rw [hl] at h; cases h
      · rw [hl] at h
        injection h with h
        subst h
        intro x hx
        rcases List.mem_cons.1 hx with rfl | hx
        · exact ⟨y, ha, List.mem_cons_self⟩
        · obtain ⟨z, z1, z2⟩ := ih hl x hx
          exact ⟨z, z1, List.mem_cons_of_mem _ z2⟩

/-- The value of a factor at a complete record. -/
theorem recValue_complete {B : BN V S K} {vs : List V} {fr : Frame V S} (hfr : CompleteOn B vs fr) {r : Rec V S} (hr : r ∈ fr.rows)
    {f : Factor II} (hdom : ∀ p ∈ f.dom, p.2 = B.states p.1) (hvs : ∀ v ∈ f.vars, v ∈ vs) :
    f.recValue r = f.getValue (Rec.obs r) ∧ FullObs f.dom (Rec.obs r) ∧ Covers f.dom (Rec.obs r) (Rec.asg r) ∧
      InDom f.dom (Rec.asg r) ∧ ∀ v ∈ vs, asg (Rec.obs r) v = Rec.asg r v := by
  have hk := hfr.wf.keys r hr
  have hget : ∀ v ∈ vs, Dict.get? (Rec.obs r) v = some (Rec.asg r v) := fun v hv =>
    rec_get? hfr.wf.nodup hk (hfr.states r hr v hv).2
  have hfull : FullObs f.dom (Rec.obs r) := fun p hp => by
    have hv := hvs p.1 (Dict.mem_keys_of_mem hp)
    exact ⟨_, by rw [hdom p hp]; exact (hfr.states r hr _ hv).1, hget _ hv⟩
  have hasg : ∀ v ∈ vs, asg (Rec.obs r) v = Rec.asg r v := fun v hv => by rw [asg, over_of_get? (hget v hv)]
  refine ⟨if_neg ?_, hfull, ?_, ?_, hasg⟩
  · rintro ⟨v, hv, hg⟩
    have h1 := (hfr.states r hr v (hvs v hv)).2
    rw [Dict.get?_of_mem (k := v) (v := some (Rec.asg r v)) (by rw [hk]; exact hfr.wf.nodup) h1] at hg
    cases hg
  · intro v hv
    exact hget v (hvs v hv)
  · intro p hp
    rw [hdom p hp]
    exact (hfr.states r hr _ (hvs _ (Dict.mem_keys_of_mem hp))).1

/-! ### The decomposition graph -/

/-- A model in which the decomposition works: every endogenous variable has an exogenous parent (`C49_no_exogenous_parent`), and the
decomposition graph is acyclic (`C67_acyclic_partial`, `C67_cyclic`). -/
structure QSetting (m : SCM II LL) (B : BN V S K) (order : List V) : Prop where
  wf : m.base.graph.WF
  nodes : m.base.graph.nodes = B.nodes
  topo : TopoOrder (m.base.graph.endoGraph m.endogenous) order
  acyclic : (m.qgraph order).Acyclic
  exo : ∀ v ∈ B.nodes, v ∈ m.endogenous → ∃ u, u ∉ m.endogenous ∧ (u, v) ∈ m.base.graph.edges

namespace QSetting

theorem qwf {m : SCM II LL} {B : BN V S K} {order : List V}
    (h : QSetting m B order) : (m.qgraph order).WF := (DiGraph.foldl_qgraph h.wf m.endogenous order).1

theorem mem_nodes {m : SCM II LL} {B : BN V S K} {order : List V}
    (h : QSetting m B order) {v : V} : v ∈ (m.qgraph order).nodes ↔ v ∈ B.nodes ∧ v ∈ m.endogenous := by
  rw [(C67_contains h.wf h.topo).2 v, h.nodes]

theorem pred_mem {m : SCM II LL} {B : BN V S K} {order : List V}
    (h : QSetting m B order) {v p : V} (hp : p ∈ (m.qgraph order).pred v) : p ∈ (m.qgraph order).nodes :=
  (h.qwf.ends _ (DiGraph.mem_pred.1 hp)).1

theorem not_pred {m : SCM II LL} {B : BN V S K} {order : List V}
    (h : QSetting m B order) (v : V) : v ∉ (m.qgraph order).pred v := fun hp =>
  h.acyclic v (.single (DiGraph.mem_pred.1 hp))

theorem cov {m : SCM II LL} {B : BN V S K} {order : List V}
    (h : QSetting m B order) : ∀ v ∈ (m.qgraph order).nodes, v ∈ m.endogenous ∧ ∃ u, u ∉ m.endogenous ∧
    (u, v) ∈ m.base.graph.edges := fun v hv => ⟨(h.mem_nodes.1 hv).2, h.exo v (h.mem_nodes.1 hv).1 (h.mem_nodes.1 hv).2⟩

/-- The members of a component are nodes of the decomposition graph. -/
theorem comp_mem {m : SCM II LL} {B : BN V S K} {order : List V}
    (h : QSetting m B order) {v : V} (hv : v ∈ (m.base.graph.exoGraph m.endogenous).nodes) {w : V}
    (hw : w ∈ ((m.base.graph.exoGraph m.endogenous).component v).filter (· ∈ m.endogenous)) : w ∈ (m.qgraph order).nodes := by
  obtain ⟨h1, h2⟩ := List.mem_filter.1 hw
  have hx := DiGraph.exoGraph_wf m.base.graph m.endogenous
  have hwn : w ∈ (m.base.graph.exoGraph m.endogenous).nodes := by
    rcases ReflTransGen.cases_tail ((DiGraph.mem_component hx hv).1 h1) with rfl | ⟨z, _, h⟩
    · exact hv
    · rcases h with h | h
      · exact (hx.ends _ h).2
      · exact (hx.ends _ h).1
  refine h.mem_nodes.2 ⟨?_, by simpa using h2⟩
  rw [← h.nodes]
  obtain ⟨e, he, _, rfl | rfl⟩ := DiGraph.exoGraph_nodes.1 hwn
  · exact (h.wf.ends _ he).1
  · exact (h.wf.ends _ he).2

/-- A factor with the right variables is accepted for its node. -/
theorem fits {m : SCM II LL} {B : BN V S K} {order : List V}
    (h : QSetting m B order) {v : V} (hv : v ∈ (m.qgraph order).nodes) {f : Factor II} (hf : f.WF)
    (hd : ∀ p ∈ f.dom, p.2 = B.states p.1) (hvars : ∀ w, w ∈ f.vars ↔ w ∈ [v] ∨ w ∈ (m.qgraph order).pred v)
    (hr : ∀ w, w ∈ f.rightVars ↔ w ∈ (m.qgraph order).pred v) : DagModel.Fits (m.qgraph order) B.states v f where
  node := hv
  right := ⟨fun x hx => (hr x).2 hx, fun x hx => (hr x).1 hx⟩
  left := by
    have hl : ∀ w, w ∈ f.leftVars ↔ w = v := by
      intro w
      rw [Factor.mem_leftVars (storeOf_lawful vt), hvars, hr, List.mem_singleton]
      constructor
      · rintro ⟨h1 | h1, h2⟩
        · exact h1
        · exact absurd h1 h2
      · rintro rfl
        exact ⟨.inl rfl, h.not_pred w⟩
    exact ⟨fun x hx => (hl x).2 (List.mem_singleton.1 hx), fun x hx => List.mem_singleton.2 ((hl x).1 hx)⟩
  dom := hd
  mem := (hvars v).2 (.inl List.mem_cons_self)

/-- The factors of a model: the queries succeed, one by one. -/
theorem qfactors_ok {m : SCM II LL} {B : BN V S K} {order : List V}
    (h : QSetting m B order) {ch : Choices V} (hch : ch.Ok) {P : V → Factor II → Prop}
    (hq : ∀ v ∈ (m.qgraph order).nodes, ∀ o : VEObj (AnyFactor II LL) II, o.model = m.base →
      ∃ f, (o.queryCond ch [v] ((m.qgraph order).pred v) none).2 = .ok f ∧ f.WF ∧ (∀ p ∈ f.dom, p.2 = B.states p.1) ∧
        (∀ w, w ∈ f.vars ↔ w ∈ [v] ∨ w ∈ (m.qgraph order).pred v) ∧ (∀ w, w ∈ f.rightVars ↔ w ∈ (m.qgraph order).pred v) ∧ P v f)
    {pop : List V → V} (hpop : ∀ c, c ≠ [] → pop c ∈ c) :
    ∃ bn, m.qbnet (m.qgraph order) pop (m.qfactors ch (m.qgraph order)) = .ok bn ∧ bn.graph = m.qgraph order ∧
      ∀ v ∈ (m.qgraph order).nodes, ∃ f, Dict.get? bn.factors v = some (some f) ∧
        DagModel.Fits (m.qgraph order) B.states v f ∧ f.WF ∧
        (∀ w, w ∈ f.vars ↔ w ∈ [v] ∨ w ∈ (m.qgraph order).pred v) ∧ P v f := by
  refine qbnet_ok h.qwf h.acyclic (P := fun v f => f.WF ∧ (∀ w, w ∈ f.vars ↔ w ∈ [v] ∨ w ∈ (m.qgraph order).pred v) ∧ P v f) hpop
    (fun v hv => ?_) h.cov
  set c := ((m.base.graph.exoGraph m.endogenous).component v).filter (· ∈ m.endogenous) with hc
  obtain ⟨s1, s2⟩ := hch.setOrd c
  have hn : ∀ w ∈ ch.setOrd c, w ∈ (m.qgraph order).nodes := fun w hw => h.comp_mem hv ((s2 w).1 hw)
  obtain ⟨l, l1, l2, l3⟩ := qLoop_ok (P := fun w f => DagModel.Fits (m.qgraph order) B.states w f ∧ f.WF ∧
      (∀ x, x ∈ f.vars ↔ x ∈ [w] ∨ x ∈ (m.qgraph order).pred w) ∧ P w f) (ch.setOrd c) hn
    (fun w hw o ho => by
      obtain ⟨f, f1, f2, f3, f4, f5, f6⟩ := hq w (hn w hw) o ho
      exact ⟨f, f1, h.fits (hn w hw) f2 f3 f4 f5, f2, f4, f6⟩) (VEObj.new m.base) rfl
  refine ⟨l, ?_, by rw [l2]; exact s1, fun w => by rw [l2]; exact s2 w, fun p hp => (l3 p hp).1, fun p hp => (l3 p hp).2⟩
  rw [SCM.qfactors, DiGraph.getEndoCComponent, DiGraph.getCComponent, if_pos hv]
  simp only [py_ok_bind]
  exact l1

/-- The factors from data. -/
theorem qfactorsData_ok [CharZero K] {m : SCM II LL} {B : BN V S K} {order : List V}
    (h : QSetting m B order) (hB : B.Valid) (hdoms : m.Doms B) {setOrd : List V → List V}
    (hso : ∀ l, (setOrd l).Nodup ∧ ∀ v, v ∈ setOrd l ↔ v ∈ l) {fr : Frame V S} (hfr : CompleteOn B (m.qgraph order).nodes fr)
    (hne : fr.rows ≠ []) (N : NanName S) {pop : List V → V} (hpop : ∀ c, c ≠ [] → pop c ∈ c) :
    ∃ bn, m.qbnet (m.qgraph order) pop (m.qfactorsData N setOrd (m.qgraph order) fr) = .ok bn ∧ bn.graph = m.qgraph order ∧
      ∀ v ∈ (m.qgraph order).nodes, ∃ f, Dict.get? bn.factors v = some (some f) ∧
        DagModel.Fits (m.qgraph order) B.states v f ∧ f.WF ∧
        (∀ w, w ∈ f.vars ↔ w ∈ [v] ∨ w ∈ (m.qgraph order).pred v) ∧
        ∀ r ∈ fr.rows, f.recValue r = .ok (.fin (frequency K fr v ((m.qgraph order).pred v) (Rec.asg r))) := by
  set q := m.qgraph order with hqd
  have hdom : m.domainsOf m.base.graph.nodes = .ok (B.nodes.map fun v => (v, B.states v)) := by
    rw [Gradient.domainsOf_ok hdoms, partDom]
    congr 2
    exact List.filter_eq_self.2 fun v hv => by rw [h.nodes]; simpa using hv
  have hkeys : Dict.keys (B.nodes.map fun v => (v, B.states v)) = B.nodes := by simp [Dict.keys, Function.comp_def]
  have hone : ∀ v ∈ q.nodes, ∃ f : Factor II, (⟨fr, B.nodes.map fun v => (v, B.states v), true⟩ : Laplace V S).queryCond N II setOrd [v] (q.pred v) [] = .ok f ∧
      f.WF ∧ (∀ p ∈ f.dom, p.2 = B.states p.1) ∧ (∀ w, w ∈ f.vars ↔ w ∈ [v] ∨ w ∈ q.pred v) ∧ (∀ w, w ∈ f.rightVars ↔ w ∈ q.pred v) ∧
      ∀ r ∈ fr.rows, f.recValue r = .ok (.fin (frequency K fr v (q.pred v) (Rec.asg r))) := by
    intro v hv
    have hT : ∀ t ∈ setOrd ([v] ++ q.pred v), t ∈ q.nodes := by
      intro t ht
      rcases List.mem_append.1 (((hso _).2 t).1 ht) with ht | ht
      · rw [List.mem_singleton.1 ht]; exact hv
      · exact h.pred_mem ht
    have hlap : LaplaceOk (⟨fr, B.nodes.map fun v => (v, B.states v), true⟩ : Laplace V S) (setOrd ([v] ++ q.pred v)) [] :=
      { wf := hfr.wf
        dom := ⟨by rw [hkeys]; exact hB.nodes, fun p hp => by
            obtain ⟨w, hw, rfl⟩ := List.mem_map.1 hp
            exact hB.nodupStates w hw, fun p hp => by
            obtain ⟨w, hw, rfl⟩ := List.mem_map.1 hp
            exact hB.nonempty w hw⟩
        nonempty := List.ne_nil_of_mem (((hso _).2 v).2 (by simp))
        nodup := (hso _).1
        tdom := fun t ht => by rw [hkeys]; exact (h.mem_nodes.1 (hT t ht)).1
        tcols := fun t ht => hfr.cols t (hT t ht)
        ecols := by simp [Dict.keys]
        disj := by simp [Dict.keys]
        complete := by
          intro r hr _ p hp hpT
          obtain ⟨w, hw, rfl⟩ := List.mem_map.1 hp
          exact ⟨_, hfr.states r hr w (hT w hpT)⟩ }
    have hall : (numRows fr fun r => Agrees r []) = fr.rows.length := by
      rw [numRows, List.filter_eq_self.2]
      intro r _; simp [Agrees]
    obtain ⟨f, f1, f2, f3, f4, f5, f6⟩ := lap_cond (K := K) vt N hso (List.nodup_singleton v)
      (fun t ht => by rw [List.mem_singleton.1 ht]; exact h.not_pred v) hlap
      (by show 0 < numRows fr _; rw [hall]; exact List.length_pos_iff.2 hne)
    have hfd : ∀ p ∈ f.dom, p.2 = B.states p.1 := by
      intro p hp
      rw [f3] at hp
      obtain ⟨w, _, rfl⟩ := List.mem_map.1 (List.mem_filter.1 hp).1
      rfl
    refine ⟨f, f1, f2, hfd, f4, f5, fun r hr => ?_⟩
    obtain ⟨e1, _, e2, e3, _⟩ := recValue_complete hfr hr hfd (fun w hw => by
      rcases (f4 w).1 hw with hw | hw
      · rw [List.mem_singleton.1 hw]; exact hv
      · exact h.pred_mem hw)
    have hnil : ∀ C : List V, (numRows fr fun r' => Agrees r' [] ∧ AgreesOn r' C (Rec.asg r)) = numRows fr fun r' => AgreesOn r' C (Rec.asg r) := by
      intro C
      rw [numRows, numRows]
      congr 1
      exact List.filter_congr fun r' _ => by simp [Agrees]
    rw [e1, f6 _ _ e3 e2]
    · rw [frequency]
      simp only [hnil]
      rfl
    · show 0 < numRows fr _
      rw [hnil]
      refine List.length_pos_iff.2 (List.ne_nil_of_mem (List.mem_filter.2 ⟨hr, ?_⟩))
      exact decide_eq_true fun t ht => (hfr.states r hr t (h.pred_mem ht)).2
  refine qbnet_ok h.qwf h.acyclic (P := fun v f => f.WF ∧ (∀ w, w ∈ f.vars ↔ w ∈ [v] ∨ w ∈ q.pred v) ∧
    ∀ r ∈ fr.rows, f.recValue r = .ok (.fin (frequency K fr v (q.pred v) (Rec.asg r)))) hpop (fun v hv => ?_) h.cov
  set c := ((m.base.graph.exoGraph m.endogenous).component v).filter (· ∈ m.endogenous) with hc
  obtain ⟨s1, s2⟩ := hso c
  have hn : ∀ w ∈ setOrd c, w ∈ q.nodes := fun w hw => h.comp_mem hv ((s2 w).1 hw)
  have hone' : ∀ w ∈ setOrd c, ∃ p : V × Factor II, (do
      let pa ← q.predecessors w
      let f ← (⟨fr, B.nodes.map fun v => (v, B.states v), true⟩ : Laplace V S).queryCond N II setOrd [w] pa []
      return (w, f)) = (.ok p : Py _) ∧ p.1 = w ∧ DagModel.Fits q B.states w p.2 ∧ p.2.WF ∧
        (∀ x, x ∈ p.2.vars ↔ x ∈ [w] ∨ x ∈ q.pred w) ∧
        ∀ r ∈ fr.rows, p.2.recValue r = .ok (.fin (frequency K fr w (q.pred w) (Rec.asg r))) := by
    intro w hw
    obtain ⟨f, f1, f2, f3, f4, f5, f6⟩ := hone w (hn w hw)
    refine ⟨(w, f), ?_, rfl, h.fits (hn w hw) f2 f3 f4 f5, f2, f4, f6⟩
    rw [DiGraph.predecessors, if_pos (hn w hw), py_ok_bind, f1]
    rfl
  obtain ⟨l, l1, l2, l3⟩ : ∃ l : List (V × Factor II), (setOrd c).mapM (fun w => do
      let pa ← q.predecessors w
      let f ← (⟨fr, B.nodes.map fun v => (v, B.states v), true⟩ : Laplace V S).queryCond N II setOrd [w] pa []
      return (w, f)) = (.ok l : Py _) ∧ Dict.keys l = setOrd c ∧ ∀ p ∈ l, DagModel.Fits q B.states p.1 p.2 ∧ p.2.WF ∧
        (∀ x, x ∈ p.2.vars ↔ x ∈ [p.1] ∨ x ∈ q.pred p.1) ∧
        ∀ r ∈ fr.rows, p.2.recValue r = .ok (.fin (frequency K fr p.1 (q.pred p.1) (Rec.asg r))) := by
    clear s1 s2 hn
    revert hone'
    generalize setOrd c = k
    intro hone'
    induction k with
    | nil => exact ⟨[], rfl, rfl, by simp⟩
    | cons w k ih =>
      obtain ⟨l, l1, l2, l3⟩ := ih fun x hx => hone' x (List.mem_cons_of_mem _ hx)
      obtain ⟨p, p1, p2, p3⟩ := hone' w List.mem_cons_self
      refine ⟨p :: l, ?_, by rw [Dict.keys_cons, l2, p2], fun y hy => ?_⟩
      · rw [List.mapM_cons, p1, py_ok_bind, l1]; rfl
      · rcases List.mem_cons.1 hy with rfl | hy
        · rw [p2]; exact p3
        · exact l3 y hy
  refine ⟨l, ?_, by rw [l2]; exact s1, fun w => by rw [l2]; exact s2 w, fun p hp => (l3 p hp).1, fun p hp => (l3 p hp).2⟩
  rw [SCM.qfactorsData, hdom, py_ok_bind, DiGraph.getEndoCComponent, DiGraph.getCComponent, if_pos hv]
  simp only [py_ok_bind]
  exact l1

end QSetting

/-! ### C49 -/

/-- `list(set(xs))` and `c.pop()`, in whatever way python chooses -/
structure PyChoices (setOrd : List V → List V) (pop : List V → V) : Prop where
  set : ∀ l, (setOrd l).Nodup ∧ ∀ v, v ∈ setOrd l ↔ v ∈ l
  pop : ∀ c, c ≠ [] → pop c ∈ c

variable {R : Type} [Field R] [LinearOrder R]

/-- **C49** `max_log_likelihood` is the likelihood with the relative frequencies, for every store, every order of python's sets and
every choice of variables, when the records are complete. -/
theorem C49_empirical [IsStrictOrderedRing K] (log : K → R) (N : NanName S) {setOrd : List V → List V} {pop : List V → V}
    (hpy : PyChoices setOrd pop) {m : SCM II LL} {B : BN V S K} {order : List V} (h : QSetting m B order) (hB : B.Valid)
    (hdoms : m.Doms B) {fr : Frame V S} (hfr : CompleteOn B (m.qgraph order).nodes fr) (hne : fr.rows ≠ []) {vs : List V}
    (hvs : ∀ v ∈ vs, v ∈ (m.qgraph order).nodes) :
    m.maxLogLikelihood log N setOrd pop (m.qgraph order) fr vs = .ok (.fin (recordsLik log (usedVars (m.qgraph order) vs) fr
      fun v a => frequency K fr v ((m.qgraph order).pred v) a)) := by
  obtain ⟨bn, h1, h2, h3⟩ := h.qfactorsData_ok hB hdoms hpy.set hfr hne N hpy.pop
  have hW : (if vs = [] then bn.graph.nodes else vs) = usedVars (m.qgraph order) vs := by rw [h2, usedVars]
  obtain ⟨l, l1, l2⟩ := logProb_ok (log := log) (bn := bn) (rows := fr.rows) (vs := vs)
    (x := fun v r => frequency K fr v ((m.qgraph order).pred v) (Rec.asg r)) (fun v hv => by
      rw [hW] at hv
      have hvn := usedVars_mem hvs v hv
      obtain ⟨f, f1, _, _, _, f2⟩ := h3 v hvn
      refine ⟨f, f1, fun r hr => ⟨f2 r hr, ?_⟩⟩
      have pos : ∀ C : List V, (∀ w ∈ C, w ∈ (m.qgraph order).nodes) → 0 < numRows fr fun r' => AgreesOn r' C (Rec.asg r) := by
        intro C hC
        exact List.length_pos_iff.2 (List.ne_nil_of_mem (List.mem_filter.2 ⟨hr, decide_eq_true fun t ht => (hfr.states r hr t (hC t ht)).2⟩))
      refine div_pos (Nat.cast_pos.2 (pos _ fun w hw => ?_)) (Nat.cast_pos.2 (pos _ fun w hw => h.pred_mem hw))
      rcases List.mem_cons.1 hw with rfl | hw
      · exact hvn
      · exact h.pred_mem hw)
  rw [SCM.maxLogLikelihood, h1, py_ok_bind, l1, py_ok_bind, l2, hW]
  rfl

/-- A sum over one variable -/
theorem sumOver_single (D : V → List S) (v : V) (f : (V → S) → K) (a : V → S) :
    sumOver D [v] f a = ((D v).map fun s => f (upd a v s)).sum := rfl

/-- **C49** `log_likelihood` is the likelihood with the conditional probabilities `P(v | pa)` of the model, for every store, every
elimination order, every order of python's sets and every choice of variables, when the records are complete and possible. -/
theorem C49_model [IsStrictOrderedRing K] (log : K → R) {ch : Choices V} (hch : ch.Ok) {pop : List V → V} (hpop : ∀ c, c ≠ [] → pop c ∈ c)
    {m : SCM II LL} {B : BN V S K} {order : List V} (h : QSetting m B order) (hr : Represents (I := II) m.base B) (hB : B.Valid)
    (hn : B.Normalised) (hnn : B.NonNeg) {fr : Frame V S} (hfr : CompleteOn B (m.qgraph order).nodes fr) {vs : List V}
    (hvs : ∀ v ∈ vs, v ∈ (m.qgraph order).nodes)
    (hpos : ∀ v ∈ usedVars (m.qgraph order) vs, ∀ r ∈ fr.rows, 0 < B.marg (v :: (m.qgraph order).pred v) (Rec.asg r)) :
    m.logLikelihood log ch pop (m.qgraph order) fr vs = .ok (.fin (recordsLik log (usedVars (m.qgraph order) vs) fr
      fun v a => condProb B v ((m.qgraph order).pred v) a)) := by
  set q := m.qgraph order with hq
  have hm1 : B.marg (Dict.keys ([] : Obs V S)) (asg []) ≠ 0 := by
    rw [show Dict.keys ([] : Obs V S) = [] from rfl, BN.marg_nil hB hn]; exact one_ne_zero
  have hnodes : ∀ {v}, v ∈ q.nodes → ∀ t ∈ [v] ++ q.pred v, t ∈ q.nodes := by
    intro v hv t ht
    rcases List.mem_append.1 ht with ht | ht
    · rw [List.mem_singleton.1 ht]; exact hv
    · exact h.pred_mem ht
  obtain ⟨bn, h1, h2, h3⟩ := h.qfactors_ok hch (P := fun v f => (∀ p ∈ f.dom, p.2 = B.states p.1) ∧ ∀ obs, FullObs f.dom obs →
      B.marg (q.pred v) (asg obs) ≠ 0 → f.getValue obs = .ok (.fin (condProb B v (q.pred v) (asg obs)))) (fun v hv o ho => by
    obtain ⟨f, f1, f2, f3, f4, _, f5, f6⟩ := C39_conditional_any_store (ev := []) hch o (ho ▸ hr) hB hn (List.nodup_singleton v)
      (fun t ht => by rw [List.mem_singleton.1 ht]; exact h.not_pred v) (by simp)
      (fun t ht => (h.mem_nodes.1 (hnodes hv t ht)).1) ⟨by simp [Dict.keys], by simp [Dict.keys], by simp [Dict.get?]⟩
      (by simp [Dict.keys]) (e := none) rfl hm1
    refine ⟨f, f1, f2, f3, f4, f5, f3, fun obs ho hz => ?_⟩
    have := f6 obs ho
    simp only [Dict.keys, List.map_nil, List.append_nil, List.nil_append] at this
    exact this hz) hpop
  have hW : (if vs = [] then bn.graph.nodes else vs) = usedVars q vs := by rw [h2, usedVars]
  obtain ⟨l, l1, l2⟩ := logProb_ok (log := log) (bn := bn) (rows := fr.rows) (vs := vs)
    (x := fun v r => condProb B v (q.pred v) (Rec.asg r)) (fun v hv => by
      rw [hW] at hv
      have hvn := usedVars_mem hvs v hv
      obtain ⟨f, f1, _, _, f2, f3, f4⟩ := h3 v hvn
      refine ⟨f, f1, fun r hr => ?_⟩
      obtain ⟨e1, e2, _, _, e3⟩ := recValue_complete hfr hr f3 (fun w hw => by
        rcases (f2 w).1 hw with hw | hw
        · rw [List.mem_singleton.1 hw]; exact hvn
        · exact h.pred_mem hw)
      have hp := hpos v hv r hr
      have hst : ∀ w ∈ q.pred v, w ∈ B.nodes → Rec.asg r w ∈ B.states w := fun w hw _ => (hfr.states r hr w (h.pred_mem hw)).1
      have hne : B.marg (q.pred v) (Rec.asg r) ≠ 0 := by
        intro hz
        refine hp.ne' (BN.marg_zero (T := [v]) hB hnn (fun t ht => ?_) (List.nodup_singleton v) (fun t ht => ?_) (fun w hw _ => ?_) hz)
        · rw [List.mem_singleton.1 ht]; exact (h.mem_nodes.1 hvn).1
        · rw [List.mem_singleton.1 ht]; exact h.not_pred v
        · exact (hfr.states r hr w (hnodes hvn w hw)).1
      have hm : ∀ C : List V, (∀ w ∈ C, w ∈ q.nodes) → B.marg C (asg (Rec.obs r)) = B.marg C (Rec.asg r) := fun C hC =>
        hB.marg_dep C _ _ fun w hw => e3 w (hC w hw)
      have hpa := hm (q.pred v) fun w hw => h.pred_mem hw
      have hva := hm (v :: q.pred v) fun w hw => hnodes hvn w hw
      refine ⟨?_, div_pos hp (lt_of_le_of_ne (BN.marg_nonneg hB hnn hst) (Ne.symm hne))⟩
      rw [e1, f4 _ e2 (by rw [hpa]; exact hne), condProb, condProb, hpa, hva])
  rw [SCM.logLikelihood, h1, py_ok_bind, l1, py_ok_bind, l2, hW]
  rfl

/-- **C49** as soon as one record has a missing value for a variable that is asked for, or for one of its parents in the decomposition,
`log_likelihood` fails. -/
theorem C49_missing_value [IsStrictOrderedRing K] (log : K → R) {ch : Choices V} (hch : ch.Ok) {pop : List V → V} (hpop : ∀ c, c ≠ [] → pop c ∈ c)
    {m : SCM II LL} {B : BN V S K} {order : List V} (h : QSetting m B order) (hr : Represents (I := II) m.base B) (hB : B.Valid)
    (hn : B.Normalised) {fr : Frame V S} {vs : List V} (hvs : ∀ v ∈ vs, v ∈ (m.qgraph order).nodes)
    (hz : ∃ v ∈ usedVars (m.qgraph order) vs, ∃ w ∈ v :: (m.qgraph order).pred v, ∃ r ∈ fr.rows, Dict.get? r w = some none) :
    ∃ e, m.logLikelihood log ch pop (m.qgraph order) fr vs = .error e := by
  set q := m.qgraph order with hq
  have hm1 : B.marg (Dict.keys ([] : Obs V S)) (asg []) ≠ 0 := by
    rw [show Dict.keys ([] : Obs V S) = [] from rfl, BN.marg_nil hB hn]; exact one_ne_zero
  have hnodes : ∀ {v}, v ∈ q.nodes → ∀ t ∈ [v] ++ q.pred v, t ∈ q.nodes := by
    intro v hv t ht
    rcases List.mem_append.1 ht with ht | ht
    · rw [List.mem_singleton.1 ht]; exact hv
    · exact h.pred_mem ht
  obtain ⟨bn, h1, h2, h3⟩ := h.qfactors_ok hch (P := fun _ _ => True) (fun v hv o ho => by
    obtain ⟨f, f1, f2, f3, f4, _, f5, f6⟩ := C39_conditional_any_store (ev := []) hch o (ho ▸ hr) hB hn (List.nodup_singleton v)
      (fun t ht => by rw [List.mem_singleton.1 ht]; exact h.not_pred v) (by simp)
      (fun t ht => (h.mem_nodes.1 (hnodes hv t ht)).1) ⟨by simp [Dict.keys], by simp [Dict.keys], by simp [Dict.get?]⟩
      (by simp [Dict.keys]) (e := none) rfl hm1
    exact ⟨f, f1, f2, f3, f4, f5, trivial⟩) hpop
  have hW : (if vs = [] then bn.graph.nodes else vs) = usedVars q vs := by rw [h2, usedVars]
  obtain ⟨v, hv, w, hw, r, hrm, hrw⟩ := hz
  obtain ⟨f, f1, _, _, f2, _⟩ := h3 v (usedVars_mem hvs v hv)
  rw [SCM.logLikelihood, h1, py_ok_bind, DagModel.logProb, hW]
  rcases e1 : (usedVars q vs).mapM (Dict.get bn.factors) with e | fs
  · exact ⟨e, rfl⟩
  rcases e2 : fs.mapM (slotLogProb log fr.rows) with e | ls
  · exact ⟨e, by rw [py_ok_bind, e2]; rfl⟩
  exfalso
  obtain ⟨g, g1, g2⟩ := mapM_all e1 v hv
  rw [Dict.get, f1] at g1
  injection g1 with g1
  obtain ⟨l, l1, _⟩ := mapM_all e2 g g2
  rw [← g1, slotLogProb, Factor.logProb] at l1
  obtain ⟨y, y1, _⟩ := mapM_all l1 r hrm
  rw [Factor.recValue, if_pos ⟨w, (f2 w).2 (by simpa using hw), hrw⟩] at y1
  cases y1

/-- **C49** as soon as one record is impossible in the model, `log_likelihood` fails: `math.log(0)` is a `ValueError`, not minus
infinity. Arrays only, see `C39_conditional_partial`. -/
theorem C49_impossible [IsStrictOrderedRing K] (log : K → R) {ch : Choices V} (hch : ch.Ok) {pop : List V → V}
    (hpop : ∀ c, c ≠ [] → pop c ∈ c) {m : SCM (storeOf .numpy : StoreImpl V S (Fl K)) (labelStoreOf .numpy : LabelStore V S)}
    {B : BN V S K} {order : List V} (h : QSetting m B order)
    (hr : Represents (I := (storeOf .numpy : StoreImpl V S (Fl K))) m.base B) (hB : B.Valid)
    (hn : B.Normalised) (hnn : B.NonNeg) {fr : Frame V S} (hfr : CompleteOn B (m.qgraph order).nodes fr) {vs : List V}
    (hvs : ∀ v ∈ vs, v ∈ (m.qgraph order).nodes)
    (hz : ∃ v ∈ usedVars (m.qgraph order) vs, ∃ r ∈ fr.rows, B.marg (v :: (m.qgraph order).pred v) (Rec.asg r) = 0) :
    m.logLikelihood log ch pop (m.qgraph order) fr vs = .error .valueError := by
  set q := m.qgraph order with hq
  have hm1 : B.marg (Dict.keys ([] : Obs V S)) (asg []) ≠ 0 := by
    rw [show Dict.keys ([] : Obs V S) = [] from rfl, BN.marg_nil hB hn]; exact one_ne_zero
  have hnodes : ∀ {v}, v ∈ q.nodes → ∀ t ∈ [v] ++ q.pred v, t ∈ q.nodes := by
    intro v hv t ht
    rcases List.mem_append.1 ht with ht | ht
    · rw [List.mem_singleton.1 ht]; exact hv
    · exact h.pred_mem ht
  obtain ⟨bn, h1, h2, h3⟩ := h.qfactors_ok hch (P := fun v f => (∀ p ∈ f.dom, p.2 = B.states p.1) ∧ ∀ obs, FullObs f.dom obs →
      f.getValue obs = .ok (.fin (condProb B v (q.pred v) (asg obs)))) (fun v hv o ho => by
    obtain ⟨f, f1, f2, f3, f4, _, f5, f6⟩ := C39_conditional_partial (ev := []) hch o (ho ▸ hr) hB hn hnn (List.nodup_singleton v)
      (fun t ht => by rw [List.mem_singleton.1 ht]; exact h.not_pred v) (by simp)
      (fun t ht => (h.mem_nodes.1 (hnodes hv t ht)).1) ⟨by simp [Dict.keys], by simp [Dict.keys], by simp [Dict.get?]⟩
      (by simp [Dict.keys]) (e := none) rfl hm1
    refine ⟨f, f1, f2, f3, f4, f5, f3, fun obs ho => ?_⟩
    have := f6 obs ho
    simp only [Dict.keys, List.map_nil, List.append_nil, List.nil_append] at this
    exact this) hpop
  have hW : (if vs = [] then bn.graph.nodes else vs) = usedVars q vs := by rw [h2, usedVars]
  have herr := logProb_error (log := log) (bn := bn) (rows := fr.rows) (vs := vs) (x := fun v r => condProb B v (q.pred v) (Rec.asg r))
    (fun v hv => by
      rw [hW] at hv
      have hvn := usedVars_mem hvs v hv
      obtain ⟨f, f1, _, _, f2, f3, f4⟩ := h3 v hvn
      refine ⟨f, f1, fun r hr => ?_⟩
      obtain ⟨e1, e2, _, _, e3⟩ := recValue_complete hfr hr f3 (fun w hw => by
        rcases (f2 w).1 hw with hw | hw
        · rw [List.mem_singleton.1 hw]; exact hvn
        · exact h.pred_mem hw)
      have hm : ∀ C : List V, (∀ w ∈ C, w ∈ q.nodes) → B.marg C (asg (Rec.obs r)) = B.marg C (Rec.asg r) := fun C hC =>
        hB.marg_dep C _ _ fun w hw => e3 w (hC w hw)
      rw [e1, f4 _ e2, condProb, condProb, hm (q.pred v) fun w hw => h.pred_mem hw, hm (v :: q.pred v) fun w hw => hnodes hvn w hw])
    (by
      rw [hW]
      obtain ⟨v, hv, r, hr, hz⟩ := hz
      refine ⟨v, hv, r, hr, ?_⟩
      show ¬ 0 < condProb B v (q.pred v) (Rec.asg r)
      rw [condProb, hz, zero_div]
      exact lt_irrefl _)
  rw [SCM.logLikelihood, h1, py_ok_bind, herr]
  rfl

end

section
variable {V S : Type} [DecidableEq V] [DecidableEq S] [Inhabited S] {K : Type} [Field K] [LinearOrder K] [IsStrictOrderedRing K]

/-- **C49** the likelihood with the relative frequencies is at least the one with any other non-negative tables `t` whose entries, for
the configurations that occur, sum to at most one. -/
theorem C49_bound (φ : K →+* ℝ) (hφ : StrictMono φ) {B : BN V S K} {q : DiGraph V} {fr : Frame V S} (hfr : CompleteOn B q.nodes fr)
    (hst : ∀ v ∈ q.nodes, (B.states v).Nodup) (hq : ∀ v ∈ q.nodes, ∀ p ∈ q.pred v, p ∈ q.nodes) (hself : ∀ v, v ∉ q.pred v)
    {vs : List V} (hvs : ∀ v ∈ vs, v ∈ q.nodes)
    {t : V → (V → S) → K} (hdep : ∀ v ∈ vs, DependsOn (t v) (v :: q.pred v))
    (h0 : ∀ v ∈ vs, ∀ r ∈ fr.rows, ∀ s ∈ B.states v, 0 ≤ t v (upd (Rec.asg r) v s))
    (h1 : ∀ v ∈ vs, ∀ r ∈ fr.rows, ((B.states v).map fun s => t v (upd (Rec.asg r) v s)).sum ≤ 1)
    (hpos : ∀ v ∈ vs, ∀ r ∈ fr.rows, 0 < t v (Rec.asg r)) :
    recordsLik (fun x => Real.log (φ x)) vs fr t ≤
      recordsLik (fun x => Real.log (φ x)) vs fr (fun v a => frequency K fr v (q.pred v) a) := by
  refine List.sum_le_sum fun v hv => ?_
  have hvn := hvs v hv
  have hagree : ∀ r ∈ fr.rows, ∀ C : List V, (∀ w ∈ C, w ∈ q.nodes) → ∀ r' ∈ fr.rows,
      (AgreesOn r' C (Rec.asg r) ↔ ∀ w ∈ C, Rec.asg r' w = Rec.asg r w) := by
    intro r hr C hC r' hr'
    refine forall₂_congr fun w hw => ?_
    have hm := (hfr.states r' hr' w (hC w hw)).2
    rw [mem_iff_val hfr.wf.nodup (hfr.wf.keys r' hr')] at hm ⊢
    rw [hm, Option.some_inj]
  have hupd : ∀ r : Rec V S, upd (Rec.asg r) v (Rec.asg r v) = Rec.asg r := by
    intro r; funext w
    by_cases hw : w = v
    · subst hw; simp
    · rw [upd_ne _ _ hw]
  have mono : ∀ {x y : K}, x ≤ y → φ x ≤ φ y := fun h => hφ.monotone h
  have key := frequencies_best (rows := fr.rows) (c := fun r => (q.pred v).map (Rec.asg r)) (s := fun r => Rec.asg r v)
    (st := B.states v) (t := fun r s => φ (t v (upd (Rec.asg r) v s))) (hst v hvn)
    (fun r hr => (hfr.states r hr v hvn).1)
    (fun r hr r' hr' hc => by
      funext s
      refine congrArg φ (hdep v hv _ _ fun w hw => ?_)
      by_cases hwv : w = v
      · subst hwv; simp
      · rw [upd_ne _ _ hwv, upd_ne _ _ hwv]
        exact (List.map_inj_left.1 hc) w ((List.mem_cons.1 hw).resolve_left hwv))
    (fun r hr s hs => by have := mono (h0 v hv r hr s hs); rwa [map_zero] at this)
    (fun r hr => by
      have := mono (h1 v hv r hr)
      rw [map_one, map_list_sum, List.map_map] at this
      exact this)
    (fun r hr => by
      rw [hupd]
      have := hφ (hpos v hv r hr)
      rwa [map_zero] at this)
  refine le_trans (le_of_eq ?_) (key.trans (le_of_eq ?_))
  · refine congrArg List.sum (List.map_congr_left fun r _ => ?_)
    rw [hupd]
  · refine congrArg List.sum (List.map_congr_left fun r hr => ?_)
    change _ = Real.log (φ (frequency K fr v (q.pred v) (Rec.asg r)))
    rw [frequency, map_div₀, map_natCast, map_natCast, numRows, numRows, ← List.countP_eq_length_filter, ← List.countP_eq_length_filter]
    have e2 : (fr.rows.countP fun r' => decide (AgreesOn r' (q.pred v) (Rec.asg r))) =
        fr.rows.countP fun y => decide ((q.pred v).map (Rec.asg y) = (q.pred v).map (Rec.asg r)) := by
      refine List.countP_congr fun r' hr' => ?_
      rw [decide_eq_true_iff, decide_eq_true_iff, hagree r hr _ (hq v hvn) r' hr', List.map_inj_left]
    have e1 : (fr.rows.countP fun r' => decide (AgreesOn r' (v :: q.pred v) (Rec.asg r))) =
        fr.rows.countP fun y => decide ((q.pred v).map (Rec.asg y) = (q.pred v).map (Rec.asg r) ∧ Rec.asg y v = Rec.asg r v) := by
      refine List.countP_congr fun r' hr' => ?_
      rw [decide_eq_true_iff, decide_eq_true_iff, hagree r hr _ (fun w hw => by
        rcases List.mem_cons.1 hw with rfl | hw
        · exact hvn
        · exact hq v hvn w hw) r' hr', List.map_inj_left, List.forall_mem_cons, and_comm]
    rw [e1, e2]


variable {vt : VType}

local notation "II" => (storeOf vt : StoreImpl V S (Fl K))
local notation "LL" => (labelStoreOf vt : LabelStore V S)

/-- **C49** `log_prob` of a network over the decomposition graph, and the comparison with `max_log_likelihood`: whatever the tables of
the network. -/
theorem C49_any_network (φ : K →+* ℝ) (hφ : StrictMono φ) (N : NanName S) {setOrd : List V → List V} {pop : List V → V}
    (hpy : PyChoices setOrd pop) {m : SCM II LL} {B : BN V S K} {order : List V} (h : QSetting m B order) (hB : B.Valid)
    (hdoms : m.Doms B) {fr : Frame V S} (hfr : CompleteOn B (m.qgraph order).nodes fr) (hne : fr.rows ≠ []) {vs : List V}
    (hvs : ∀ v ∈ vs, v ∈ (m.qgraph order).nodes)
    {bn : DagModel (Factor II) V S} {B' : BN V S K} (hbn : bn.graph = m.qgraph order) (hr : Represents bn B') (hB' : B'.Valid)
    (hst : ∀ v ∈ B'.nodes, B'.states v = B.states v) (hn : B'.Normalised) (hnn : B'.NonNeg)
    (hpos : ∀ v ∈ usedVars (m.qgraph order) vs, ∀ r ∈ fr.rows, 0 < B'.table v (Rec.asg r)) :
    ∃ l x y, bn.logProb (fun x => Real.log (φ x)) fr.rows vs = .ok l ∧ l.sum = .fin x ∧
      x = recordsLik (fun x => Real.log (φ x)) (usedVars (m.qgraph order) vs) fr (fun v a => B'.table v a) ∧
      m.maxLogLikelihood (fun x => Real.log (φ x)) N setOrd pop (m.qgraph order) fr vs = .ok (.fin y) ∧ x ≤ y := by
  have hnodes : B'.nodes = (m.qgraph order).nodes := by rw [← hr.nodes, hbn]
  have hW : (if vs = [] then bn.graph.nodes else vs) = usedVars (m.qgraph order) vs := by rw [hbn, usedVars]
  have hin : ∀ r ∈ fr.rows, B'.InStates (Rec.asg r) := fun r hr v hv => by
    rw [hst v hv]; exact (hfr.states r hr v (hnodes ▸ hv)).1
  have hpar : ∀ v ∈ B'.nodes, ∀ p, p ∈ B'.parents v ↔ p ∈ (m.qgraph order).pred v := fun v hv p => by
    rw [hr.parents v hv p, hbn, DiGraph.mem_pred]
  obtain ⟨l, l1, l2⟩ := logProb_ok (log := fun x => Real.log (φ x)) (bn := bn) (rows := fr.rows) (vs := vs)
    (x := fun v r => B'.table v (Rec.asg r)) (fun v hv => by
      rw [hW] at hv
      have hvn := usedVars_mem hvs v hv
      have hvb : v ∈ B'.nodes := hnodes ▸ hvn
      obtain ⟨f, g, f1, f2, f3⟩ := hr.table v hvb
      obtain rfl : f = g := by simpa [VEFactor.view] using f2
      have hvar : ∀ w ∈ f.vars, w ∈ (m.qgraph order).nodes := fun w hw => by
        rcases (f3.vars w).1 hw with rfl | hw
        · exact hvn
        · rw [← hnodes]; exact hB'.parents v hvb w hw
      refine ⟨f, f1, fun r hr => ⟨?_, hpos v hv r hr⟩⟩
      obtain ⟨e1, e2, _, _, e3⟩ := recValue_complete hfr hr (fun p hp => by
        rw [f3.dom p hp, hst _ (hnodes ▸ hvar _ (Dict.mem_keys_of_mem hp))]) hvar
      rw [e1, f3.value _ e2]
      congr 2
      refine hB'.scope v hvb _ _ fun w hw => e3 w ?_
      rcases List.mem_cons.1 hw with rfl | hw
      · exact hvn
      · rw [← hnodes]; exact hB'.parents v hvb w hw)
  rw [hW] at l2
  refine ⟨l, _, _, l1, l2, rfl, C49_empirical _ N hpy h hB hdoms hfr hne hvs, ?_⟩
  refine C49_bound φ hφ hfr (fun v hv => hB.nodupStates v (h.mem_nodes.1 hv).1) (fun v _ p hp => h.pred_mem hp) (h.not_pred)
    (usedVars_mem hvs) (fun v hv => ?_) (fun v hv r hr s hs => ?_) (fun v hv r hr => ?_) hpos
  · have hvb : v ∈ B'.nodes := hnodes ▸ usedVars_mem hvs v hv
    intro a b hab
    refine hB'.scope v hvb _ _ fun w hw => hab w ?_
    rcases List.mem_cons.1 hw with rfl | hw
    · exact List.mem_cons_self
    · exact List.mem_cons_of_mem _ ((hpar v hvb w).1 hw)
  · have hvb : v ∈ B'.nodes := hnodes ▸ usedVars_mem hvs v hv
    refine hnn v hvb _ fun w hw => ?_
    by_cases hwv : w = v
    · subst hwv; rw [upd_same, hst w hw]; exact hs
    · rw [upd_ne _ _ hwv]; exact hin r hr w hw
  · have hvb : v ∈ B'.nodes := hnodes ▸ usedVars_mem hvs v hv
    rw [← hst v hvb]
    exact (hn v hvb _ (hin r hr)).le

/-- **C49** `log_likelihood` of any model `m1` with the same graph is at most `max_log_likelihood`. -/
theorem C49_max_partial (φ : K →+* ℝ) (hφ : StrictMono φ) (N : NanName S) {ch : Choices V} (hch : ch.Ok)
    {setOrd : List V → List V} {pop pop1 : List V → V} (hpy : PyChoices setOrd pop) (hpop1 : ∀ c, c ≠ [] → pop1 c ∈ c)
    {m m1 : SCM II LL} {B B1 : BN V S K} {order : List V} (h : QSetting m B order) (hB : B.Valid) (hdoms : m.Doms B)
    (hg : m1.base.graph = m.base.graph) (he : m1.endogenous = m.endogenous) (hr1 : Represents (I := II) m1.base B1)
    (hB1 : B1.Valid) (hn1 : B1.Normalised) (hnn1 : B1.NonNeg) (hst : ∀ v ∈ B1.nodes, B1.states v = B.states v)
    {fr : Frame V S} (hfr : CompleteOn B (m.qgraph order).nodes fr) (hne : fr.rows ≠ []) {vs : List V}
    (hvs : ∀ v ∈ vs, v ∈ (m.qgraph order).nodes)
    (hpos : ∀ v ∈ usedVars (m.qgraph order) vs, ∀ r ∈ fr.rows, 0 < B1.marg (v :: (m.qgraph order).pred v) (Rec.asg r)) :
    ∃ x y, m1.logLikelihood (fun x => Real.log (φ x)) ch pop1 (m1.qgraph order) fr vs = .ok (.fin x) ∧
      m.maxLogLikelihood (fun x => Real.log (φ x)) N setOrd pop (m.qgraph order) fr vs = .ok (.fin y) ∧ x ≤ y := by
  have hq : m1.qgraph order = m.qgraph order := by rw [SCM.qgraph, SCM.qgraph, hg, he]
  have hnodes : B1.nodes = B.nodes := by rw [← hr1.nodes, hg, h.nodes]
  have h1 : QSetting m1 B1 order := ⟨hg ▸ h.wf, hr1.nodes, by rw [hg, he]; exact h.topo, by rw [hq]; exact h.acyclic, by
    rw [hnodes, hg, he]; exact h.exo⟩
  have hfr1 : CompleteOn B1 (m1.qgraph order).nodes fr := ⟨hfr.wf, by rw [hq]; exact hfr.cols, fun r hr v hv => by
    rw [hst v (h1.mem_nodes.1 hv).1]; exact hfr.states r hr v (hq ▸ hv)⟩
  refine ⟨_, _, C49_model _ hch hpop1 h1 hr1 hB1 hn1 hnn1 hfr1 (by rw [hq]; exact hvs) (by rw [hq]; exact hpos),
    C49_empirical _ N hpy h hB hdoms hfr hne hvs, ?_⟩
  rw [hq]
  have hst' : ∀ v ∈ (m.qgraph order).nodes, B1.states v = B.states v := fun v hv => hst v (hnodes ▸ (h.mem_nodes.1 hv).1)
  have hpd : ∀ v ∈ usedVars (m.qgraph order) vs, ∀ r ∈ fr.rows, 0 < B1.marg ((m.qgraph order).pred v) (Rec.asg r) := by
    intro v hv r hr
    have hvn := usedVars_mem hvs v hv
    refine lt_of_le_of_ne (BN.marg_nonneg hB1 hnn1 fun w hw _ => by rw [hst' w (h.pred_mem hw)]; exact (hfr.states r hr w (h.pred_mem hw)).1)
      (Ne.symm fun hz => (hpos v hv r hr).ne' (BN.marg_zero (T := [v]) hB1 hnn1 (fun t ht => ?_) (List.nodup_singleton v)
        (fun t ht => ?_) (fun w hw _ => ?_) hz))
    · rw [List.mem_singleton.1 ht, hnodes]; exact (h.mem_nodes.1 hvn).1
    · rw [List.mem_singleton.1 ht]; exact h.not_pred v
    · have : w ∈ (m.qgraph order).nodes := by
        rcases List.mem_append.1 hw with hw | hw
        · rw [List.mem_singleton.1 hw]; exact hvn
        · exact h.pred_mem hw
      rw [hst' w this]; exact (hfr.states r hr w this).1
  have hpaeq : ∀ v, ∀ a s, B1.marg ((m.qgraph order).pred v) (upd a v s) = B1.marg ((m.qgraph order).pred v) a := by
    intro v a s
    refine hB1.marg_dep _ _ _ fun w hw => upd_ne _ _ ?_
    rintro rfl
    exact h.not_pred w hw
  refine C49_bound φ hφ hfr (fun v hv => hB.nodupStates v (h.mem_nodes.1 hv).1) (fun v _ p hp => h.pred_mem hp) (h.not_pred)
    (usedVars_mem hvs) (fun v hv => ?_) (fun v hv r hr s hs => ?_) (fun v hv r hr => ?_)
    (fun v hv r hr => div_pos (hpos v hv r hr) (hpd v hv r hr))
  · intro a b hab
    change condProb B1 v _ a = condProb B1 v _ b
    rw [condProb, condProb, hB1.marg_dep _ a b hab, hB1.marg_dep _ a b fun w hw => hab w (List.mem_cons_of_mem _ hw)]
  · have hvn := usedVars_mem hvs v hv
    change 0 ≤ condProb B1 v ((m.qgraph order).pred v) _
    rw [condProb, hpaeq]
    refine div_nonneg (BN.marg_nonneg hB1 hnn1 fun w hw hwb => ?_) (hpd v hv r hr).le
    by_cases hwv : w = v
    · subst hwv; rw [upd_same, hst' w hvn]; exact hs
    · have hw := (List.mem_cons.1 hw).resolve_left hwv
      rw [upd_ne _ _ hwv, hst' w (h.pred_mem hw)]; exact (hfr.states r hr w (h.pred_mem hw)).1
  · have hvn := usedVars_mem hvs v hv
    have hs := hB1.sum_marg (T := [v]) (W := (m.qgraph order).pred v) (fun t ht => by
      rw [List.mem_singleton.1 ht, hnodes]; exact (h.mem_nodes.1 hvn).1) (List.nodup_singleton v)
      (fun t ht => by rw [List.mem_singleton.1 ht]; exact h.not_pred v) (a := Rec.asg r)
    have e : (fun s => condProb B1 v ((m.qgraph order).pred v) (upd (Rec.asg r) v s)) =
        fun s => B1.marg (v :: (m.qgraph order).pred v) (upd (Rec.asg r) v s) / B1.marg ((m.qgraph order).pred v) (Rec.asg r) := by
      funext s; rw [condProb, hpaeq]
    simp only [div_eq_mul_inv] at e
    rw [e, List.sum_map_mul_right, ← div_eq_mul_inv, ← hst' v hvn]
    refine (div_le_one (hpd v hv r hr)).2 (le_of_eq ?_)
    rw [← hs]; rfl

end
end Verif.Props
