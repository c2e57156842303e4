import Verif.Net.Tian
import Verif.Props.QLikelihoodEx

/-!
# The decomposition graph and the distribution of the endogenous variables (C77, C78)
-/

set_option linter.unusedSectionVars false
set_option linter.unusedSimpArgs false

namespace Verif.Props
open Verif Relation Causal

section
variable {V S : Type} [DecidableEq V] [DecidableEq S] [Inhabited S]
variable {K : Type} [Field K] [LinearOrder K] [IsStrictOrderedRing K] {vt : VType}
local notation "II" => (storeOf vt : StoreImpl V S (Fl K))
local notation "LL" => (labelStoreOf vt : LabelStore V S)

/-- The children of endogenous variables are endogenous. -/
def ExoRoots (m : SCM II LL) : Prop := ∀ e ∈ m.base.graph.edges, e.1 ∈ m.endogenous → e.2 ∈ m.endogenous

theorem QSetting.tian {m : SCM II LL} {B : BN V S K} {order : List V} (h : QSetting m B order) (hroot : ExoRoots m) :
    ∃ o, TianOk m.base.graph m.endogenous order o ∧ o.Perm (m.qgraph order).nodes := by
  obtain ⟨o, ho⟩ := h.acyclic.exists_topo h.qwf
  exact ⟨o, ⟨h.wf, h.topo, ho, hroot, fun v hv => h.exo v (h.nodes ▸ hv)⟩, ho.perm⟩

/-- The marginal of the endogenous variables, whatever their order and whether all of them are nodes. -/
theorem QSetting.marg_endo {m : SCM II LL} {B : BN V S K} {order : List V} (h : QSetting m B order) (a : V → S) :
    B.marg m.endogenous a = B.marg (m.qgraph order).nodes a := by
  rw [BN.marg, BN.marg]
  congr 1
  refine List.filter_congr fun v hv => ?_
  simp [h.mem_nodes, hv]

/-! ### C77 -/

/-- **C77** the distribution of the endogenous variables is the product of their conditional distributions given their parents in the
decomposition graph. -/
theorem C77_factorisation {m : SCM II LL} {B : BN V S K} {order : List V} (h : QSetting m B order) (hroot : ExoRoots m)
    (hr : Represents (I := II) m.base B) (hB : B.Valid) (hn : B.Normalised) (hnn : B.NonNeg) {a : V → S}
    (ha : ∀ v ∈ (m.qgraph order).nodes, a v ∈ B.states v) :
    B.marg m.endogenous a = ((m.qgraph order).nodes.map fun v => condProb B v ((m.qgraph order).pred v) a).prod := by
  obtain ⟨o, ht, hp⟩ := h.tian hroot
  have hcl : ∀ vs : List V, (∀ v ∈ vs, v ∈ (m.qgraph order).nodes) → B.marg vs a = B.marg vs (B.clamp a) := fun vs hvs =>
    hB.marg_dep vs _ _ fun v hv => (BN.clamp_of_mem fun _ => ha v (hvs v hv)).symm
  rw [h.marg_endo, B.marg_ext (ws := o) fun v => (hp.mem_iff).symm, hcl o fun v hv => hp.mem_iff.1 hv,
    ht.marg_prefix hB hn hnn h.nodes hr.parents (hB.clamp_in a) o [] (by simp), (hp.map _).prod_eq]
  refine congrArg List.prod (List.map_congr_left fun v hv => ?_)
  have hpa : ∀ w ∈ (m.qgraph order).pred v, w ∈ (m.qgraph order).nodes := fun w hw => h.pred_mem hw
  rw [condProb, hcl _ hpa, hcl (v :: (m.qgraph order).pred v) fun w hw => by
    rcases List.mem_cons.1 hw with rfl | hw
    · exact hv
    · exact hpa w hw]

/-- Every factor is positive when the product is. -/
theorem QSetting.pos {m : SCM II LL} {B : BN V S K} {order : List V} (h : QSetting m B order) (hB : B.Valid) (hnn : B.NonNeg) {a : V → S}
    (ha : ∀ v ∈ (m.qgraph order).nodes, a v ∈ B.states v) (hpos : 0 < B.marg m.endogenous a) {vs : List V}
    (hvs : ∀ v ∈ vs, v ∈ (m.qgraph order).nodes) : 0 < B.marg vs a := by
  refine lt_of_le_of_ne (BN.marg_nonneg hB hnn fun v hv _ => ha v (hvs v hv)) fun hz => hpos.ne' ?_
  have := BN.marg_zero hB hnn (T := (m.qgraph order).nodes.filter (· ∉ vs)) (W := vs) (a := a)
    (fun t ht => (h.mem_nodes.1 (List.mem_filter.1 ht).1).1) (h.qwf.nodes.filter _) (fun t ht => by simpa using (List.mem_filter.1 ht).2)
    (fun v hv _ => ha v ((List.mem_append.1 hv).elim (fun hv => (List.mem_filter.1 hv).1) (hvs v))) hz.symm
  rw [h.marg_endo, ← this]
  refine B.marg_ext (fun v => ?_) a
  simp only [List.mem_append, List.mem_filter, decide_eq_true_eq]
  constructor
  · intro hv
    by_cases hvv : v ∈ vs
    · exact .inr hvv
    · exact .inl ⟨hv, hvv⟩
  · rintro (hv | hv)
    · exact hv.1
    · exact hvs v hv

/-- **C77** `log_likelihood` is the logarithm of the probability that the model gives to the endogenous values of the records. -/
theorem C77_log_likelihood {R : Type} [Field R] [LinearOrder R] {log : K → R} (hlog : ∀ x y, 0 < x → 0 < y → log (x * y) = log x + log y)
    {ch : Choices V} (hch : ch.Ok) {pop : List V → V} (hpop : ∀ c, c ≠ [] → pop c ∈ c)
    {m : SCM II LL} {B : BN V S K} {order : List V} (h : QSetting m B order) (hroot : ExoRoots m)
    (hr : Represents (I := II) m.base B) (hB : B.Valid) (hn : B.Normalised) (hnn : B.NonNeg) {fr : Frame V S}
    (hfr : CompleteOn B (m.qgraph order).nodes fr) (hpos : ∀ r ∈ fr.rows, 0 < B.marg m.endogenous (Rec.asg r)) :
    m.logLikelihood log ch pop (m.qgraph order) fr [] =
      .ok (.fin (fr.rows.map fun r => log (B.marg m.endogenous (Rec.asg r))).sum) := by
  have hst : ∀ r ∈ fr.rows, ∀ v ∈ (m.qgraph order).nodes, Rec.asg r v ∈ B.states v := fun r hr v hv => (hfr.states r hr v hv).1
  have hcons : ∀ v ∈ (m.qgraph order).nodes, ∀ w ∈ v :: (m.qgraph order).pred v, w ∈ (m.qgraph order).nodes := fun v hv w hw => by
    rcases List.mem_cons.1 hw with rfl | hw
    · exact hv
    · exact h.pred_mem hw
  have hu : usedVars (m.qgraph order) [] = (m.qgraph order).nodes := rfl
  rw [C49_model log hch hpop h hr hB hn hnn hfr (vs := []) (by simp) (fun v hv r hr' => h.pos hB hnn (hst r hr') (hpos r hr') (hcons v hv)), hu,
    recordsLik, ← sum_swap]
  congr 2
  refine congrArg List.sum (List.map_congr_left fun r hr' => ?_)
  rw [C77_factorisation h hroot hr hB hn hnn (hst r hr')]
  have l1 : log 1 = 0 := by
    have := hlog 1 1 one_pos one_pos
    rw [mul_one] at this
    exact left_eq_add.1 this
  have key : ∀ l : List V, (∀ v ∈ l, v ∈ (m.qgraph order).nodes) →
      0 < (l.map fun v => condProb B v ((m.qgraph order).pred v) (Rec.asg r)).prod ∧
      (l.map fun v => log (condProb B v ((m.qgraph order).pred v) (Rec.asg r))).sum =
        log (l.map fun v => condProb B v ((m.qgraph order).pred v) (Rec.asg r)).prod := by
    intro l
    induction l with
    | nil => intro _; exact ⟨one_pos, l1.symm⟩
    | cons v l ih =>
      intro hl
      obtain ⟨i1, i2⟩ := ih fun w hw => hl w (List.mem_cons_of_mem _ hw)
      have hv := hl v List.mem_cons_self
      have hc : 0 < condProb B v ((m.qgraph order).pred v) (Rec.asg r) :=
        div_pos (h.pos hB hnn (hst r hr') (hpos r hr') (hcons v hv)) (h.pos hB hnn (hst r hr') (hpos r hr') fun w hw => h.pred_mem hw)
      refine ⟨by simpa using mul_pos hc i1, ?_⟩
      rw [List.map_cons, List.sum_cons, i2, List.map_cons, List.prod_cons, hlog _ _ hc i1]
  exact (key _ fun _ hv => hv).2

/-- **C77** with arrays, a record whose endogenous values are impossible ends with a `ValueError`. -/
theorem C77_impossible {R : Type} [Field R] [LinearOrder R] (log : K → R) {ch : Choices V} (hch : ch.Ok) {pop : List V → V}
    (hpop : ∀ c, c ≠ [] → pop c ∈ c) {m : SCM (storeOf .numpy : StoreImpl V S (Fl K)) (labelStoreOf .numpy : LabelStore V S)}
    {B : BN V S K} {order : List V} (h : QSetting m B order) (hroot : ExoRoots m)
    (hr : Represents (I := (storeOf .numpy : StoreImpl V S (Fl K))) m.base B) (hB : B.Valid)
    (hn : B.Normalised) (hnn : B.NonNeg) {fr : Frame V S} (hfr : CompleteOn B (m.qgraph order).nodes fr)
    (hz : ∃ r ∈ fr.rows, B.marg m.endogenous (Rec.asg r) = 0) :
    m.logLikelihood log ch pop (m.qgraph order) fr [] = .error .valueError := by
  obtain ⟨r, hrr, hz⟩ := hz
  have hst : ∀ v ∈ (m.qgraph order).nodes, Rec.asg r v ∈ B.states v := fun v hv => (hfr.states r hrr v hv).1
  rw [C77_factorisation h hroot hr hB hn hnn hst] at hz
  obtain ⟨v, hv, hv0⟩ := List.mem_map.1 (List.prod_eq_zero_iff.1 hz)
  refine C49_impossible log hch hpop h hr hB hn hnn hfr (vs := []) (by simp) ⟨v, hv, r, hrr, ?_⟩
  rw [condProb, div_eq_zero_iff] at hv0
  rcases hv0 with h0 | h0
  · exact h0
  · exact BN.marg_zero (T := [v]) hB hnn (fun t ht => by rw [List.mem_singleton.1 ht]; exact (h.mem_nodes.1 hv).1) (List.nodup_singleton v)
      (fun t ht => by rw [List.mem_singleton.1 ht]; exact h.not_pred v) (fun w hw _ => hst w (by
        rcases List.mem_append.1 hw with hw | hw
        · rw [List.mem_singleton.1 hw]; exact hv
        · exact h.pred_mem hw)) h0

/-! ### C78 -/

/-- The tables that `get_qfactors` returns, without data -/
theorem QSetting.qfactors_spec {ch : Choices V} (hch : ch.Ok) {m : SCM II LL} {B : BN V S K} {order : List V} (h : QSetting m B order)
    (hr : Represents (I := II) m.base B) (hB : B.Valid) (hn : B.Normalised) {c : List V}
    (hc : c ∈ m.base.graph.endoCComponents m.endogenous) {v : V} (hv : v ∈ c) :
    ∃ l, m.qfactors ch (m.qgraph order) v = .ok l ∧ (Dict.keys l).Nodup ∧ (∀ w, w ∈ Dict.keys l ↔ w ∈ c) ∧
      ∀ p ∈ l, (∀ w, w ∈ p.2.vars ↔ w = p.1 ∨ w ∈ (m.qgraph order).pred p.1) ∧ (∀ e ∈ p.2.dom, e.2 = B.states e.1) ∧
        ∀ obs, FullObs p.2.dom obs → B.marg ((m.qgraph order).pred p.1) (asg obs) ≠ 0 →
          p.2.getValue obs = .ok (.fin (condProb B p.1 ((m.qgraph order).pred p.1) (asg obs))) := by
  set q := m.qgraph order with hq
  obtain ⟨d, hd, hdc⟩ := C66_get hc hv
  have hcn : ∀ w ∈ c, w ∈ q.nodes := fun w hw => by
    obtain ⟨h1, u, h2, h3⟩ := C66_cover.1 ⟨c, hc, hw⟩
    exact h.mem_nodes.2 ⟨h.nodes ▸ (h.wf.ends _ h3).2, h1⟩
  obtain ⟨s1, s2⟩ := hch.setOrd d
  have hm1 : B.marg (Dict.keys ([] : Obs V S)) (asg []) ≠ 0 := by
    rw [show Dict.keys ([] : Obs V S) = [] from rfl, BN.marg_nil hB hn]; exact one_ne_zero
  obtain ⟨l, l1, l2, l3⟩ := qLoop_ok (ch := ch) (q := q) (M := m.base)
    (P := fun x f => (∀ w, w ∈ f.vars ↔ w = x ∨ w ∈ q.pred x) ∧ (∀ e ∈ f.dom, e.2 = B.states e.1) ∧
        ∀ obs, FullObs f.dom obs → B.marg (q.pred x) (asg obs) ≠ 0 →
          f.getValue obs = .ok (.fin (condProb B x (q.pred x) (asg obs)))) (ch.setOrd d)
    (fun w hw => hcn w ((hdc w).1 ((s2 w).1 hw))) (fun x hx o ho => by
      have hxn := hcn x ((hdc x).1 ((s2 x).1 hx))
      obtain ⟨f, f1, f2, f3, f4, _, f5, f6⟩ := C39_conditional_any_store (ev := []) hch o (ho ▸ hr) hB hn (List.nodup_singleton x)
        (fun t ht => by rw [List.mem_singleton.1 ht]; exact h.not_pred x) (by simp)
        (fun t ht => (h.mem_nodes.1 (by
          rcases List.mem_append.1 ht with ht | ht
          · rw [List.mem_singleton.1 ht]; exact hxn
          · exact h.pred_mem ht)).1) ⟨by simp [Dict.keys], by simp [Dict.keys], by simp [Dict.get?]⟩
        (by simp [Dict.keys]) (e := none) rfl hm1
      refine ⟨f, f1, fun w => by rw [f4 w, List.mem_singleton], f3, fun obs ho hz => ?_⟩
      have := f6 obs ho
      simp only [Dict.keys, List.map_nil, List.append_nil, List.nil_append] at this
      exact this hz) (VEObj.new m.base) rfl
  refine ⟨l, ?_, by rw [l2]; exact s1, fun w => by rw [l2, s2, hdc], l3⟩
  rw [SCM.qfactors, hd, py_ok_bind]
  exact l1

/-- A probability after an intervention depends on the values of the variables it is about. -/
theorem doMarg_dep {B : BN V S K} (hB : B.Valid) {d : Obs V S} (hd : ∀ w ∈ Dict.keys d, w ∈ B.nodes) (vs : List V) :
    DependsOn (B.doMarg d vs) vs := by
  have h1 : DependsOn (B.doJoint d) B.nodes := by
    intro a b hab
    have h2 : BN.Agrees d a ↔ BN.Agrees d b := by
      refine forall₃_congr fun v s hs => ?_
      rw [hab v (hd v (Dict.mem_keys_of_mem (Dict.mem_of_get? hs)))]
    have h3 : B.trunc d a = B.trunc d b := by
      refine congrArg List.prod (List.map_congr_left fun v hv => hB.scope v (List.mem_filter.1 hv).1 _ _ fun w hw => hab w ?_)
      rcases List.mem_cons.1 hw with rfl | hw
      · exact (List.mem_filter.1 hv).1
      · exact hB.parents v (List.mem_filter.1 hv).1 w hw
    rw [BN.doJoint, BN.doJoint, h3]
    exact if_congr h2 rfl rfl
  refine (h1.sumOver _).mono fun v hv => ?_
  obtain ⟨h2, h3⟩ := List.mem_filter.1 hv
  by_contra hc
  simp [h2, hc] at h3

/-- **C78** the factors of a component multiply to the probability that the variables of the component take the given values when the values
of all the other endogenous variables are imposed. -/
theorem C78_component {ch : Choices V} (hch : ch.Ok) {m : SCM II LL} {B : BN V S K} {order : List V} (h : QSetting m B order)
    (hroot : ExoRoots m) (hr : Represents (I := II) m.base B) (hB : B.Valid) (hn : B.Normalised) (hnn : B.NonNeg) {c : List V}
    (hc : c ∈ m.base.graph.endoCComponents m.endogenous) {v : V} (hv : v ∈ c) :
    ∃ l, m.qfactors ch (m.qgraph order) v = .ok l ∧ (Dict.keys l).Nodup ∧ (∀ w, w ∈ Dict.keys l ↔ w ∈ c) ∧
      ∀ obs : Obs V S, (∀ w ∈ (m.qgraph order).nodes, ∃ s ∈ B.states w, Dict.get? obs w = some s) → 0 < B.marg m.endogenous (asg obs) →
        ∀ d : Obs V S, (∀ w, w ∈ Dict.keys d ↔ w ∈ (m.qgraph order).nodes ∧ w ∉ c) → BN.Agrees d (asg obs) →
          ∃ xs : List K, l.mapM (fun p => p.2.getValue obs) = .ok (xs.map .fin) ∧ xs.prod = B.doMarg d c (asg obs) := by
  obtain ⟨l, l1, l2, l3, l4⟩ := h.qfactors_spec (order := order) hch hr hB hn hc hv
  refine ⟨l, l1, l2, l3, fun obs hobs hpos d hd hda => ?_⟩
  obtain ⟨o, ht, hp⟩ := h.tian hroot
  set q := m.qgraph order with hq
  have hcn : ∀ w ∈ c, w ∈ q.nodes := fun w hw => by
    obtain ⟨h1, u, h2, h3⟩ := C66_cover.1 ⟨c, hc, hw⟩
    exact h.mem_nodes.2 ⟨h.nodes ▸ (h.wf.ends _ h3).2, h1⟩
  have hst : ∀ w ∈ q.nodes, asg obs w ∈ B.states w := fun w hw => by
    obtain ⟨s, hs, hg⟩ := hobs w hw
    rw [asg, over_of_get? hg]; exact hs
  refine ⟨l.map fun p => condProb B p.1 (q.pred p.1) (asg obs), ?_, ?_⟩
  · rw [List.map_map]
    refine mapM_ok fun p hp => ?_
    obtain ⟨p1, p2, p3⟩ := l4 p hp
    have hpn := hcn p.1 ((l3 _).1 (Dict.mem_keys_of_mem hp))
    refine p3 obs (fun e he => ?_) (h.pos hB hnn hst hpos fun w hw => h.pred_mem hw).ne'
    obtain ⟨s, hs, hg⟩ := hobs e.1 (by
      rcases (p1 e.1).1 (Dict.mem_keys_of_mem he) with h1 | h1
      · rw [h1]; exact hpn
      · exact h.pred_mem h1)
    exact ⟨s, by rw [p2 e he]; exact hs, hg⟩
  · have hcl : ∀ vs : List V, (∀ v ∈ vs, v ∈ q.nodes) → B.marg vs (asg obs) = B.marg vs (B.clamp (asg obs)) := fun vs hvs =>
      hB.marg_dep vs _ _ fun v hv => (BN.clamp_of_mem fun _ => hst v (hvs v hv)).symm
    have e1 : (l.map fun p => condProb B p.1 (q.pred p.1) (asg obs)) =
        (Dict.keys l).map fun w => B.marg (w :: q.pred w) (B.clamp (asg obs)) / B.marg (q.pred w) (B.clamp (asg obs)) := by
      rw [Dict.keys, List.map_map]
      refine List.map_congr_left fun p hp => ?_
      have hpn := hcn p.1 ((l3 _).1 (Dict.mem_keys_of_mem hp))
      have hpa : ∀ w ∈ q.pred p.1, w ∈ q.nodes := fun w hw => h.pred_mem hw
      rw [condProb, hcl _ hpa, hcl (p.1 :: q.pred p.1) fun w hw => by
        rcases List.mem_cons.1 hw with rfl | hw
        · exact hpn
        · exact hpa w hw]
      rfl
    -- the component, as a set of nodes that exogenous edges do not leave
    have hX := DiGraph.exoGraph_wf m.base.graph m.endogenous
    obtain ⟨_, u, hu, he⟩ := C66_cover.1 ⟨c, hc, hv⟩
    have hvX : v ∈ (m.base.graph.exoGraph m.endogenous).nodes := DiGraph.exoGraph_nodes.2 ⟨(u, v), he, hu, .inr rfl⟩
    obtain ⟨c', hg', hcc⟩ := C66_get hc hv
    have hcm : ∀ w, w ∈ c ↔ w ∈ (m.base.graph.exoGraph m.endogenous).component v ∧ w ∈ m.endogenous := fun w => by
      rw [← hcc w]
      rw [DiGraph.getEndoCComponent, DiGraph.getCComponent, if_pos hvX] at hg'
      rw [← Except.ok.inj hg', List.mem_filter, decide_eq_true_eq]
    let k : V → Bool := fun w => decide (w ∈ (m.base.graph.exoGraph m.endogenous).component v)
    have hk : Closed m.base.graph m.endogenous k := by
      intro e he hx
      have hedge : (m.base.graph.exoGraph m.endogenous).Edge e.1 e.2 := DiGraph.exoGraph_edges.2 ⟨he, hx⟩
      simp only [k, decide_eq_decide, DiGraph.mem_component hX hvX]
      exact ⟨fun hh => hh.tail (.inl hedge), fun hh => hh.tail (.inr hedge)⟩
    have hok : ∀ w, w ∈ o ↔ w ∈ B.nodes ∧ w ∈ m.endogenous := fun w => by rw [hp.mem_iff, h.mem_nodes]
    have e2 := ht.component_do (a := B.clamp (asg obs)) hB hn hnn h.nodes hr.parents (hB.clamp_in _) hk (by
      rw [B.marg_ext (ws := q.nodes) fun w => hp.mem_iff, ← hcl _ fun _ hw => hw, ← h.marg_endo]; exact hpos.ne') (C := Dict.keys l) (d := d)
      (fun w => by
        rw [l3, hcm, hok]
        simp only [k, decide_eq_true_eq]
        exact ⟨fun hh => ⟨⟨(h.mem_nodes.1 (hcn w ((hcm w).2 hh))).1, hh.2⟩, hh.1⟩, fun hh => ⟨hh.2, hh.1.2⟩⟩) l2
      (fun w => by
        rw [hd, hcm, ← hp.mem_iff, hok]
        simp only [k, decide_eq_false_iff_not]
        constructor
        · exact fun hh => ⟨hh.1, fun hk => hh.2 ⟨hk, hh.1.2⟩⟩
        · exact fun hh => ⟨hh.1, fun hk => hh.2 hk.1⟩)
      (fun w s hs => by
        rw [BN.clamp_of_mem fun _ => hst w ((hd w).1 (Dict.mem_keys_of_mem (Dict.mem_of_get? hs))).1]
        exact hda w s hs)
    rw [e1]
    refine e2.trans ?_
    have e3 : B.doMarg d (Dict.keys l) = B.doMarg d c := by
      funext a
      rw [BN.doMarg, BN.doMarg]
      congr 1
      exact List.filter_congr fun w _ => by simp [l3 w]
    rw [e3]
    refine doMarg_dep hB (fun w hw => (h.mem_nodes.1 ((hd w).1 hw).1).1) c _ _ fun w hw => ?_
    exact BN.clamp_of_mem fun _ => hst w (hcn w hw)

end

/-! ### Examples and what the code does outside the hypotheses -/

/-- The logarithm of the real numbers meets the hypothesis of `C77_log_likelihood`. -/
example (φ : ℚ →+* ℝ) (hφ : StrictMono φ) : ∀ x y, 0 < x → 0 < y → Real.log (φ (x * y)) = Real.log (φ x) + Real.log (φ y) := fun x y hx hy => by
  rw [map_mul, Real.log_mul]
  · exact fun h => hx.ne' (hφ.injective (h.trans (map_zero φ).symm))
  · exact fun h => hy.ne' (hφ.injective (h.trans (map_zero φ).symm))

/-- What is to be computed for `ex_tian` -/
def tianCheck (vt : VType) : Bool :=
  match exBnet vt with
  | .ok b => decide (∀ r ∈ frQ.rows, 0 < (BN.ofModel (IS vt PyStr) b : BN PyStr Char ℚ).marg [sX, sY, sZ] (Rec.asg r)) &&
      decide ((BN.ofModel (IS vt PyStr) b : BN PyStr Char ℚ).marg [sX, sY, sZ] (Rec.asg [(sX, some '0'), (sY, some '1'), (sZ, some '0')]) = 0)
  | .error _ => false

theorem tianCheck_ex (vt : VType) : tianCheck vt = true := by cases vt <;> decide +kernel

theorem exScm_endo (vt : VType) : (do
    let m ← exScm vt none true
    return (m.endogenous, m.base.graph) : Py (List PyStr × DiGraph PyStr)) = .ok ([sX, sY, sZ], gScm) := by cases vt <;> decide +kernel

/-- The hypotheses of `C77_factorisation`, `C77_log_likelihood` and `C78_component`, together -/
theorem ex_tian (vt : VType) : ∃ (m : SCM (IS vt PyStr) (LS vt PyStr)) (B : BN PyStr Char ℚ),
    exScm vt none true = .ok m ∧ QSetting m B [sX, sY, sZ] ∧ ExoRoots m ∧ Represents (I := IS vt PyStr) m.base B ∧ B.Valid ∧
      B.Normalised ∧ B.NonNeg ∧ CompleteOn B (m.qgraph [sX, sY, sZ]).nodes frQ ∧ (∀ r ∈ frQ.rows, 0 < B.marg m.endogenous (Rec.asg r)) ∧
      B.marg m.endogenous (Rec.asg [(sX, some '0'), (sY, some '1'), (sZ, some '0')]) = 0 ∧
      [sX, sZ] ∈ m.base.graph.endoCComponents m.endogenous ∧ [sY] ∈ m.base.graph.endoCComponents m.endogenous := by
  obtain ⟨m, B, h1, h2, h3, h4, h5, h6, h7, _, h8, _, _, b, h9, rfl⟩ := ex_qlik vt
  have he := exScm_endo vt
  rw [h1] at he
  have he := Except.ok.inj he
  have e1 : m.endogenous = [sX, sY, sZ] := congrArg Prod.fst he
  have e2 : m.base.graph = gScm := congrArg Prod.snd he
  have hc := tianCheck_ex vt
  rw [tianCheck, h9] at hc
  simp only [Bool.and_eq_true, decide_eq_true_eq] at hc
  refine ⟨m, _, h1, h3, ?_, h4, h5, h6, h7, by rw [h2]; exact h8, ?_, ?_, ?_, ?_⟩
  · rw [ExoRoots, e1, e2]; decide
  · rw [e1]; exact hc.1
  · rw [e1]; exact hc.2
  · rw [e1, e2]; decide +kernel
  · rw [e1, e2]; decide +kernel

/-- The factors of the component of `X` and `Z`, and of the one of `Y`, at `X = 1, Y = 0, Z = 1`; the probability of `X = 1, Z = 1` after
`do(Y = 0)`, and of `X = 1, Y = 0, Z = 1`, as the code computes them -/
example : ∀ vt, (do
      let m ← exScm vt none true
      let obs := [(sX, '1'), (sY, '0'), (sZ, '1')]
      let l ← m.qfactors chStr (m.qgraph [sX, sY, sZ]) sX
      let xs ← l.mapM fun p => p.2.getValue obs
      let l' ← m.qfactors chStr (m.qgraph [sX, sY, sZ]) sY
      let ys ← l'.mapM fun p => p.2.getValue obs
      let f ← ((VEObj.new m.base).query chStr [sX, sY, sZ] none).2
      let y ← f.getValue obs
      let f' ← causalQuery chStr m [sX, sZ] [(sY, '0')] none
      let y' ← f'.getValue obs
      return (xs, ys, [y', y]) : Py (List (Fl ℚ) × List (Fl ℚ) × List (Fl ℚ))) =
        .ok ([.fin (1/2), .fin (2/3)], [.fin (3/4)], [.fin (1/3), .fin (1/4)]) := by
  intro vt; cases vt <;> decide +kernel

/-- `W → X → U → Y` where `X` and `Y` are declared endogenous and copy `W` and `U`, and `U` copies `X` -/
def gExoChild : DiGraph PyStr := ⟨[sW, sX, sU, sY], [(sW, sX), (sX, sU), (sU, sY)]⟩

def rowsExoChild : List (SRow PyStr) :=
  [.num [(sW, ['0', '1'])] [q (1/2), q (1/2)] sW,
   .fn [(sX, ['0', '1']), (sW, ['0', '1'])] ['0', '1'] sX,
   .num [(sU, ['0', '1']), (sX, ['0', '1'])] [q 1, q 0, q 0, q 1] sU,
   .fn [(sY, ['0', '1']), (sU, ['0', '1'])] ['0', '1'] sY]

def exoChildScm (vt : VType) : Py (SCM (IS vt PyStr) (LS vt PyStr)) := do
  let l ← facsOf vt rowsExoChild
  SCM.ofList gExoChild (l.map fun p => some p.2) (some [sX, sY]) true true

/-- **C77** the hypothesis on exogenous variables is needed: a model in which an exogenous variable is caused by an endogenous one is accepted,
the factors of `X` and `Y` at `X = 0, Y = 1` are 1/2 and 1/2, and the probability of these values is 0. -/
theorem C77_exogenous_child (vt : VType) : (do
      let m ← exoChildScm vt
      let obs := [(sX, '0'), (sY, '1')]
      let bn ← m.qbnet (m.qgraph [sX, sY]) popStr (m.qfactors chStr (m.qgraph [sX, sY]))
      let l ← bn.logProb (fun x : ℚ => x) [[(sX, some '0'), (sY, some '1')]] [sX]
      let l' ← bn.logProb (fun x : ℚ => x) [[(sX, some '0'), (sY, some '1')]] [sY]
      let f ← ((VEObj.new m.base).query chStr [sX, sY] none).2
      let y ← f.getValue obs
      return (l, l', y) : Py (List (Fl ℚ) × List (Fl ℚ) × Fl ℚ)) = .ok ([.fin (1/2)], [.fin (1/2)], .fin 0) := by
  cases vt <;> decide +kernel

end Verif.Props
