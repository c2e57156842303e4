import Verif.Net.Adjust
import Verif.Props.Causal
import Verif.Props.Operators

/-!
# C85: the rules that relate interventions to observations

Three questions about a structural causal model have the same answer when the graph says so: dropping an observation,
observing instead of imposing, and dropping an intervention (the rules of do-calculus).  The graphs are those that
`remove_ingoing_edges` and `remove_outgoing_edges` return and the separation is `nx.d_separated` as used by `dsep_nodes`.
As a consequence the expression of the library for adjustment, `(P(T | X, Z).R(X=x) * P(Z)) ** Z`, gives the answer of
`causal_query`.
-/

set_option linter.unusedSectionVars false
set_option linter.unusedSimpArgs false

namespace Verif
namespace Props
open Causal

variable {V S K : Type} [DecidableEq V] [DecidableEq S] [Inhabited S] [Field K] [LinearOrder K] {vt : VType}

local notation "II" => (storeOf vt : StoreImpl V S (Fl K))
local notation "LL" => (labelStoreOf vt : LabelStore V S)

/-- Two factors over the variables `T` with the same numbers. -/
def SameTable {I : StoreImpl V S (Fl K)} (T : List V) (r r' : Factor I) : Prop :=
  (∀ v, v ∈ r.vars ↔ v ∈ T) ∧ (∀ v, v ∈ r'.vars ↔ v ∈ T) ∧
    ∀ obs, FullObs r.dom obs → ∃ p, r.getValue obs = .ok (.fin p) ∧ r'.getValue obs = .ok (.fin p)

/-- Complete and different states for the target and for the dictionaries of a query. -/
theorem join_asg {B : BN V S K} (hB : B.Valid) {T : List V} {ev w obs : Obs V S} (hw : EvOk B (ev ++ w))
    (hT : ∀ t ∈ T, t ∈ B.nodes ∧ t ∉ Dict.keys ev ∧ t ∉ Dict.keys w) (ho : ∀ t ∈ T, asg obs t ∈ B.states t) :
    ∃ a, B.InStates a ∧ (∀ t ∈ T, a t = asg obs t) ∧ BN.Agrees ev a ∧ BN.Agrees w a := by
  obtain ⟨a, a1, a2⟩ := hB.complete (L := T ++ Dict.keys (ev ++ w)) (a := asg (ev ++ w ++ obs)) (fun v hv _ => by
    rcases List.mem_append.1 hv with hv | hv
    · rw [asg_append, BN.over_not (by rw [BN.keys_append, List.mem_append]; exact fun hc => hc.elim (hT v hv).2.1 (hT v hv).2.2)]
      exact ho v hv
    · obtain ⟨s, hs⟩ := Option.isSome_iff_exists.1 (Dict.get?_isSome.2 hv)
      rw [asg_append, over_of_get? hs]
      exact hw.states v s hs)
  have hval : ∀ v s, Dict.get? (ev ++ w) v = some s → a v = s := fun v s hs => by
    rw [a2 v (List.mem_append_right _ (Dict.mem_keys_of_mem (Dict.mem_of_get? hs))), asg_append, over_of_get? hs]
  refine ⟨a, a1, fun t ht => ?_, fun v s hs => hval v s ?_, fun v s hs => hval v s ?_⟩
  · rw [a2 t (List.mem_append_left _ ht), asg_append,
      BN.over_not (by rw [BN.keys_append, List.mem_append]; exact fun hc => hc.elim (hT t ht).2.1 (hT t ht).2.2)]
  · rw [BN.get?_append_left (Dict.mem_keys_of_mem (Dict.mem_of_get? hs)), hs]
  · rw [BN.get?_append_right fun hc => ?_, hs]
    have := hw.nodup
    rw [BN.keys_append, List.nodup_append] at this
    exact this.2.2 v hc v (Dict.mem_keys_of_mem (Dict.mem_of_get? hs)) rfl

/-- The numbers of a query at such an assignment. -/
theorem doMarg_at {B : BN V S K} (hB : B.Valid) {d ev obs : Obs V S} (hd : ∀ v ∈ Dict.keys d, v ∈ B.nodes) {T : List V}
    (hT : ∀ t ∈ T, t ∉ Dict.keys ev) {a : V → S} (ha : ∀ t ∈ T, a t = asg obs t) (hev : BN.Agrees ev a) :
    B.doMarg d (T ++ Dict.keys ev) (asg (ev ++ obs)) = B.doMarg d (T ++ Dict.keys ev) a ∧
      B.doMarg d (Dict.keys ev) (asg ev) = B.doMarg d (Dict.keys ev) a := by
  have hk : ∀ v ∈ Dict.keys ev, ∀ o : Obs V S, (asg (ev ++ o) : V → S) v = a v := fun v hv o => by
    obtain ⟨s, hs⟩ := Option.isSome_iff_exists.1 (Dict.get?_isSome.2 hv)
    rw [asg_append, over_of_get? hs, hev v s hs]
  refine ⟨BN.doMarg_dep hB hd _ _ _ fun v hv => ?_, BN.doMarg_dep hB hd _ _ _ fun v hv => ?_⟩
  · rcases List.mem_append.1 hv with hv | hv
    · rw [asg_append, BN.over_not (hT v hv), ha v hv]
    · exact hk v hv obs
  · have := hk v hv []
    rwa [List.append_nil] at this

theorem fullObs_states {B : BN V S K} {I : StoreImpl V S (Fl K)} {T : List V} {r : Factor I} (hd : ∀ p ∈ r.dom, p.2 = B.states p.1)
    (hv : ∀ v, v ∈ r.vars ↔ v ∈ T) {obs : Obs V S} (ho : FullObs r.dom obs) : ∀ t ∈ T, ∃ s ∈ B.states t, Dict.get? obs t = some s := by
  intro t ht
  obtain ⟨st, hst⟩ := Dict.mem_keys.1 ((hv t).2 ht)
  obtain ⟨s, h1, h2⟩ := ho _ hst
  exact ⟨s, by rw [← hd _ hst]; exact h1, h2⟩

theorem fullObs_of_states {B : BN V S K} {I : StoreImpl V S (Fl K)} {T : List V} {r : Factor I} (hd : ∀ p ∈ r.dom, p.2 = B.states p.1)
    (hv : ∀ v, v ∈ r.vars ↔ v ∈ T) {obs : Obs V S} (ho : ∀ t ∈ T, ∃ s ∈ B.states t, Dict.get? obs t = some s) : FullObs r.dom obs := by
  intro p hp
  obtain ⟨s, h1, h2⟩ := ho p.1 ((hv p.1).1 (Dict.mem_keys_of_mem hp))
  exact ⟨s, by rw [hd p hp]; exact h1, h2⟩

/-- Two causal queries whose quotients are equal at the assignments in question. -/
theorem same_queries {ch : Choices V} (hch : ch.Ok) {m : SCM II LL} {B : BN V S K} (h : CausalOk m B) {T : List V}
    {d ev d' ev' w : Obs V S} (hT : T ≠ []) (hTn : T.Nodup) (hd : EvOk B d) (hev : EvOk B ev) (hd' : EvOk B d') (hev' : EvOk B ev')
    (hTv : ∀ t ∈ T, t ∈ B.nodes ∧ t ∉ Dict.keys ev ∧ t ∉ Dict.keys d) (hTv' : ∀ t ∈ T, t ∉ Dict.keys ev' ∧ t ∉ Dict.keys d')
    (hw : EvOk B w) (hTw : ∀ t ∈ T, t ∉ Dict.keys w) (he : ∀ a, BN.Agrees w a → BN.Agrees ev a ∧ BN.Agrees ev' a)
    (hp : B.doMarg d (Dict.keys ev) (asg ev) ≠ 0) (hp' : B.doMarg d' (Dict.keys ev') (asg ev') ≠ 0)
    (key : ∀ a, B.InStates a → BN.Agrees w a → B.doMarg d (T ++ Dict.keys ev) a * B.doMarg d' (Dict.keys ev') a =
      B.doMarg d' (T ++ Dict.keys ev') a * B.doMarg d (Dict.keys ev) a) :
    ∃ m' r r', new m = .ok m' ∧ causalQuery ch m' T d (some ev) = .ok r ∧ causalQuery ch m' T d' (some ev') = .ok r' ∧ SameTable T r r' := by
  obtain ⟨m', r, q1, q2, _, q4, q5, _, q7⟩ := C42_interventional hch h hT hTn hTv hd hev (e := some ev) rfl hp
  obtain ⟨m'', r', s1, s2, _, s4, s5, _, s7⟩ := C42_interventional hch h hT hTn (fun t ht => ⟨(hTv t ht).1, hTv' t ht⟩) hd' hev' (e := some ev') rfl hp'
  rw [q1] at s1
  cases s1
  refine ⟨m', r, r', q1, q2, s2, q5, s5, fun obs ho => ?_⟩
  have ho1 := fullObs_states q4 q5 ho
  have ho2 := fullObs_of_states s4 s5 ho1
  refine ⟨_, q7 obs ho, (s7 obs ho2).trans ?_⟩
  obtain ⟨a, a1, a2, _, a4⟩ := join_asg h.valid (ev := []) (w := w) (obs := obs) hw (T := T)
    (fun t ht => ⟨(hTv t ht).1, by simp [Dict.keys], hTw t ht⟩) (fun t ht => by
      obtain ⟨s, h1, h2⟩ := ho1 t ht
      rw [asg, over_of_get? h2]; exact h1)
  obtain ⟨e1, e2⟩ := he a a4
  obtain ⟨f1, f2⟩ := doMarg_at h.valid hd.nodes (fun t ht => (hTv t ht).2.1) a2 e1
  obtain ⟨g1, g2⟩ := doMarg_at h.valid hd'.nodes (fun t ht => (hTv' t ht).1) a2 e2
  rw [f2] at hp
  rw [g2] at hp'
  rw [f1, f2, g1, g2, (div_eq_div_iff hp' hp).2 (key a a1 a4).symm]

theorem _root_.Verif.EvOk.split {B : BN V S K} {d e : Obs V S} (h : EvOk B (d ++ e)) :
    EvOk B d ∧ EvOk B e ∧ ∀ v ∈ Dict.keys d, v ∉ Dict.keys e := by
  have hn := h.nodup
  rw [BN.keys_append, List.nodup_append] at hn
  have hdis : ∀ v ∈ Dict.keys d, v ∉ Dict.keys e := fun v h1 h2 => hn.2.2 v h1 v h2 rfl
  refine ⟨⟨hn.1, fun v hv => h.nodes v (by rw [BN.keys_append]; exact List.mem_append_left _ hv), fun v s hs => h.states v s ?_⟩,
    ⟨hn.2.1, fun v hv => h.nodes v (by rw [BN.keys_append]; exact List.mem_append_right _ hv), fun v s hs => h.states v s ?_⟩, hdis⟩
  · rw [BN.get?_append_left (Dict.mem_keys_of_mem (Dict.mem_of_get? hs)), hs]
  · rw [BN.get?_append_right fun hc => hdis v hc (Dict.mem_keys_of_mem (Dict.mem_of_get? hs)), hs]

theorem _root_.Verif.EvOk.join {B : BN V S K} {d e : Obs V S} (hd : EvOk B d) (he : EvOk B e) (h : ∀ v ∈ Dict.keys d, v ∉ Dict.keys e) : EvOk B (d ++ e) := by
  refine ⟨?_, fun v hv => ?_, fun v s hs => ?_⟩
  · rw [BN.keys_append, List.nodup_append]
    exact ⟨hd.nodup, he.nodup, fun x hx y hy hxy => h x hx (hxy ▸ hy)⟩
  · rw [BN.keys_append, List.mem_append] at hv
    exact hv.elim (hd.nodes v) (he.nodes v)
  · by_cases hv : v ∈ Dict.keys d
    · rw [BN.get?_append_left hv] at hs; exact hd.states v s hs
    · rw [BN.get?_append_right hv] at hs; exact he.states v s hs

theorem agrees_append {d e : Obs V S} {a : V → S} (h : ∀ v ∈ Dict.keys d, v ∉ Dict.keys e) :
    BN.Agrees (d ++ e) a ↔ BN.Agrees d a ∧ BN.Agrees e a := by
  constructor
  · intro ha
    refine ⟨fun v s hs => ha v s ?_, fun v s hs => ha v s ?_⟩
    · rw [BN.get?_append_left (Dict.mem_keys_of_mem (Dict.mem_of_get? hs)), hs]
    · rw [BN.get?_append_right fun hc => h v hc (Dict.mem_keys_of_mem (Dict.mem_of_get? hs)), hs]
  · rintro ⟨h1, h2⟩ v s hs
    by_cases hv : v ∈ Dict.keys d
    · rw [BN.get?_append_left hv] at hs; exact h1 v s hs
    · rw [BN.get?_append_right hv] at hs; exact h2 v s hs

/-- **C85** observations of variables that are separated from the target in the graph without the edges into the
intervened variables can be dropped. -/
theorem C85_observation {ch : Choices V} (hch : ch.Ok) {m : SCM II LL} {B : BN V S K} (h : CausalOk m B) {T : List V} {d ev o : Obs V S}
    (hT : T ≠ []) (hTn : T.Nodup) (hTv : ∀ t ∈ T, t ∈ B.nodes ∧ t ∉ Dict.keys (ev ++ o) ∧ t ∉ Dict.keys d) (hd : EvOk B d)
    (hev : EvOk B (ev ++ o)) (hdis : ∀ v ∈ Dict.keys (ev ++ o), v ∉ Dict.keys d)
    (hs : (m.base.graph.removeIngoing (Dict.keys d)).dSeparated T (Dict.keys o) (Dict.keys ev ++ Dict.keys d) = true)
    (hp : B.doMarg d (Dict.keys (ev ++ o)) (asg (ev ++ o)) ≠ 0) (hp' : B.doMarg d (Dict.keys ev) (asg ev) ≠ 0) :
    ∃ m' r r', new m = .ok m' ∧ causalQuery ch m' T d (some (ev ++ o)) = .ok r ∧ causalQuery ch m' T d (some ev) = .ok r' ∧
      SameTable T r r' := by
  obtain ⟨h1, h2, h3⟩ := hev.split
  refine same_queries hch h hT hTn hd hev hd h1 hTv (fun t ht => ⟨fun hc => (hTv t ht).2.1 ?_, (hTv t ht).2.2⟩) (hev.join hd hdis)
    (fun t ht hc => ?_) (fun a ha => ?_) hp hp' fun a ha hag => ?_
  · rw [BN.keys_append]; exact List.mem_append_left _ hc
  · rw [BN.keys_append, List.mem_append] at hc
    exact hc.elim (hTv t ht).2.1 (hTv t ht).2.2
  · have := (agrees_append hdis).1 ha
    exact ⟨this.1, ((agrees_append h3).1 this.1).1⟩
  · have hag' := (agrees_append hdis).1 hag
    have := BN.observe_do h.valid h.norm h.rep.wf h.rep.nodes h.rep.parents (d := d) (fun v s hs _ => hd.states v s hs) hd.nodes
      (fun t ht => (hTv t ht).1) h2.nodes h1.nodes hs ha hag'.2
    rw [BN.keys_append]
    have e1 : B.doMarg d (T ++ (Dict.keys ev ++ Dict.keys o)) = B.doMarg d (T ++ (Dict.keys o ++ Dict.keys ev)) := by
      funext b
      rw [← BN.doMarg_eq hd.nodes, ← BN.doMarg_eq hd.nodes, BN.marg_congr_set fun v _ => ?_]
      simp only [List.mem_append]; tauto
    have e2 : B.doMarg d (Dict.keys ev ++ Dict.keys o) = B.doMarg d (Dict.keys o ++ Dict.keys ev) := by
      funext b
      rw [← BN.doMarg_eq hd.nodes, ← BN.doMarg_eq hd.nodes, BN.marg_congr_set fun v _ => ?_]
      simp only [List.mem_append]; tauto
    rw [e1, e2]; exact this

/-- **C85** imposing the states `e` and observing them give the same answer when, without the edges out of these variables
(and without those into the variables that are intervened anyway), they are separated from the target. -/
theorem C85_exchange {ch : Choices V} (hch : ch.Ok) {m : SCM II LL} {B : BN V S K} (h : CausalOk m B) {T : List V} {d e ev : Obs V S}
    (hT : T ≠ []) (hTn : T.Nodup) (hTv : ∀ t ∈ T, t ∈ B.nodes ∧ t ∉ Dict.keys ev ∧ t ∉ Dict.keys (d ++ e)) (hd : EvOk B (d ++ e))
    (hev : EvOk B ev) (hdis : ∀ v ∈ Dict.keys ev, v ∉ Dict.keys (d ++ e))
    (hs : ((m.base.graph.removeIngoing (Dict.keys d)).removeOutgoing (Dict.keys e)).dSeparated T (Dict.keys e) (Dict.keys ev ++ Dict.keys d) = true)
    (hp : B.doMarg (d ++ e) (Dict.keys ev) (asg ev) ≠ 0) (hp' : B.doMarg d (Dict.keys (ev ++ e)) (asg (ev ++ e)) ≠ 0) :
    ∃ m' r r', new m = .ok m' ∧ causalQuery ch m' T (d ++ e) (some ev) = .ok r ∧ causalQuery ch m' T d (some (ev ++ e)) = .ok r' ∧
      SameTable T r r' := by
  obtain ⟨h1, h2, h3⟩ := hd.split
  have hk : ∀ v, v ∈ Dict.keys (d ++ e) ↔ v ∈ Dict.keys d ∨ v ∈ Dict.keys e := fun v => by rw [BN.keys_append, List.mem_append]
  have hve : ∀ v ∈ Dict.keys ev, v ∉ Dict.keys e := fun v hv hc => hdis v hv ((hk v).2 (.inr hc))
  refine same_queries hch h hT hTn hd hev h1 (hev.join h2 hve) hTv (fun t ht => ⟨fun hc => ?_, fun hc => (hTv t ht).2.2 ((hk t).2 (.inl hc))⟩)
    (hev.join hd hdis) (fun t ht hc => ?_) (fun a ha => ?_) hp hp' fun a ha hag => ?_
  · rw [BN.keys_append, List.mem_append] at hc
    exact hc.elim (hTv t ht).2.1 fun hc => (hTv t ht).2.2 ((hk t).2 (.inr hc))
  · rw [BN.keys_append, List.mem_append] at hc
    exact hc.elim (hTv t ht).2.1 (hTv t ht).2.2
  · have := (agrees_append hdis).1 ha
    exact ⟨this.1, (agrees_append hve).2 ⟨this.1, ((agrees_append h3).1 this.2).2⟩⟩
  · have hag' := (agrees_append hdis).1 hag
    have hag2 := (agrees_append h3).1 hag'.2
    have := BN.exchange_do h.valid h.norm h.rep.wf h.rep.nodes h.rep.parents (d := d) (e := e) (fun v s hs _ => h1.states v s hs)
      (fun v s hs _ => h2.states v s hs) (fun v hv => ⟨h1.nodes v hv, h3 v hv⟩) h2.nodes
      (fun t ht => ⟨(hTv t ht).1, fun hc => (hTv t ht).2.2 ((hk t).2 (.inr hc))⟩) (fun v hv => ⟨hev.nodes v hv, hve v hv⟩) hs ha hag2.1 hag2.2
    rw [BN.keys_append]
    have e1 : B.doMarg d (T ++ (Dict.keys ev ++ Dict.keys e)) = B.doMarg d (T ++ (Dict.keys e ++ Dict.keys ev)) := by
      funext b
      rw [← BN.doMarg_eq h1.nodes, ← BN.doMarg_eq h1.nodes, BN.marg_congr_set fun v _ => ?_]
      simp only [List.mem_append]; tauto
    have e2 : B.doMarg d (Dict.keys ev ++ Dict.keys e) = B.doMarg d (Dict.keys e ++ Dict.keys ev) := by
      funext b
      rw [← BN.doMarg_eq h1.nodes, ← BN.doMarg_eq h1.nodes, BN.marg_congr_set fun v _ => ?_]
      simp only [List.mem_append]; tauto
    rw [e1, e2]; exact this.symm

/-- **C85** an intervention on variables from which neither the target nor the evidence is reached, in the graph without the
edges into the other intervened variables, can be dropped. -/
theorem C85_deletion {ch : Choices V} (hch : ch.Ok) {m : SCM II LL} {B : BN V S K} (h : CausalOk m B) {T : List V} {d e ev : Obs V S}
    (hT : T ≠ []) (hTn : T.Nodup) (hTv : ∀ t ∈ T, t ∈ B.nodes ∧ t ∉ Dict.keys ev ∧ t ∉ Dict.keys (d ++ e)) (hd : EvOk B (d ++ e))
    (hev : EvOk B ev)
    (hs : ∀ z ∈ T ++ Dict.keys ev, ∀ x ∈ Dict.keys e,
      ¬ Relation.ReflTransGen (fun u w => (u, w) ∈ (m.base.graph.removeIngoing (Dict.keys d)).edges) x z)
    (hp : B.doMarg d (Dict.keys ev) (asg ev) ≠ 0) :
    ∃ m' r r', new m = .ok m' ∧ causalQuery ch m' T (d ++ e) (some ev) = .ok r ∧ causalQuery ch m' T d (some ev) = .ok r' ∧
      SameTable T r r' := by
  obtain ⟨h1, h2, h3⟩ := hd.split
  have hk : ∀ v, v ∈ Dict.keys (d ++ e) ↔ v ∈ Dict.keys d ∨ v ∈ Dict.keys e := fun v => by rw [BN.keys_append, List.mem_append]
  have hZ := fun {Z : List V} (hZ : ∀ z ∈ Z, z ∈ T ++ Dict.keys ev) {a : V → S} (ha : ∀ v ∈ Z, v ∈ B.nodes → a v ∈ B.states v) =>
    BN.noEffect_do h.valid h.norm h.rep.parents (d := d) (e := e) (fun v s hs _ => h1.states v s hs)
      (fun v s hs _ => h2.states v s hs) (fun v hv => ⟨h1.nodes v hv, h3 v hv⟩) h2.nodes (Z := Z) (fun z hz => hs z (hZ z hz)) ha
  refine same_queries hch h hT hTn hd hev h1 hev hTv (fun t ht => ⟨(hTv t ht).2.1, fun hc => (hTv t ht).2.2 ((hk t).2 (.inl hc))⟩)
    hev (fun t ht => (hTv t ht).2.1) (fun a ha => ⟨ha, ha⟩) ?_ hp fun a ha hag => ?_
  · rw [hZ (fun z hz => List.mem_append_right _ hz) fun v hv _ => ?_]
    · exact hp
    · obtain ⟨s, hs⟩ := Option.isSome_iff_exists.1 (Dict.get?_isSome.2 hv)
      rw [asg, over_of_get? hs]; exact hev.states v s hs
  · rw [hZ (Z := T ++ Dict.keys ev) (fun z hz => hz) (fun v _ hv => ha v hv), hZ (Z := Dict.keys ev) (fun z hz => List.mem_append_right _ hz) (fun v _ hv => ha v hv)]

/-! ### Adjustment -/

theorem marg_nil {B : BN V S K} (hB : B.Valid) (hn : B.Normalised) (a : V → S) : B.marg [] a = 1 := by
  have := C29_ancestral hB hn (A := []) List.nodup_nil (by simp) (by simp) (a := a) (by simp)
  simpa using this

/-- The adjustment formula. -/
theorem adjust_sum {B : BN V S K} (hB : B.Valid) (hn : B.Normalised) {g : DiGraph V} (hg : g.WF) (hgn : g.nodes = B.nodes)
    (hge : ∀ v ∈ B.nodes, ∀ p, p ∈ B.parents v ↔ (p, v) ∈ g.edges) {T Z : List V} {X : V} {x : S} (hX : X ∈ B.nodes) (hx : x ∈ B.states X)
    (hT : ∀ t ∈ T, t ∈ B.nodes ∧ t ≠ X ∧ t ∉ Z) (hZ : ∀ z ∈ Z, z ∈ B.nodes ∧ z ≠ X) (hZn : Z.Nodup)
    (hr : ∀ z ∈ Z, ¬ Relation.ReflTransGen (fun u w => (u, w) ∈ g.edges) X z)
    (hs : (g.removeOutgoing [X]).dSeparated T [X] Z = true) (hp : ∀ a, B.InStates a → a X = x → B.marg (X :: Z) a ≠ 0) {a : V → S}
    (ha : ∀ t ∈ T, a t ∈ B.states t) :
    B.doMarg [(X, x)] T a =
      sumOver B.states Z (fun b => B.marg (T ++ X :: Z) (upd b X x) / B.marg (X :: Z) (upd b X x) * B.marg Z b) a := by
  have hk : Dict.keys [(X, x)] = [X] := rfl
  have hkn : ∀ v ∈ Dict.keys [(X, x)], v ∈ B.nodes := by simpa [hk] using hX
  have hdo : B.DoOk [(X, x)] := by
    intro v s hvs _
    by_cases hv : X = v
    · subst hv
      rw [Dict.get?_of_mem (by simp [Dict.keys]) List.mem_cons_self] at hvs
      cases hvs; exact hx
    · have := Dict.mem_keys_of_mem (Dict.mem_of_get? hvs)
      rw [hk, List.mem_singleton] at this
      exact absurd this.symm hv
  rw [← BN.doMarg_eq hkn, ← (hB.doBN [(X, x)]).sum_marg (T := Z) (fun z hz => (hZ z hz).1) hZn fun z hz hc => (hT z hc).2.2 hz]
  refine sumOver_congr hZn fun b hb1 hb2 => ?_
  have hTb : ∀ t ∈ T, b t ∈ B.states t := fun t ht => by rw [hb1 t (hT t ht).2.2]; exact ha t ht
  obtain ⟨c, c1, c2⟩ := hB.complete (L := X :: (T ++ Z)) (a := upd b X x) (fun v hv _ => by
    rcases List.mem_cons.1 hv with rfl | hv
    · rw [upd_same]; exact hx
    · rcases List.mem_append.1 hv with hv | hv
      · rw [upd_ne _ _ (hT v hv).2.1]; exact hTb v hv
      · rw [upd_ne _ _ (hZ v hv).2]; exact hb2 v hv)
  have cX : c X = x := by rw [c2 X List.mem_cons_self, upd_same]
  have hag : BN.Agrees [(X, x)] c := by
    intro v s hvs
    have hv := Dict.mem_keys_of_mem (Dict.mem_of_get? hvs)
    rw [hk, List.mem_singleton] at hv
    subst hv
    rw [Dict.get?_of_mem (by simp [Dict.keys]) List.mem_cons_self] at hvs
    cases hvs; exact cX
  have key := BN.exchange hB hn hg hgn hge hdo hkn (T := T) (W := Z) (fun t ht => ⟨(hT t ht).1, by simpa [hk] using (hT t ht).2.1⟩)
    (fun z hz => ⟨(hZ z hz).1, by simpa [hk] using (hZ z hz).2⟩) hs c1 hag
  have hno : B.doMarg [(X, x)] Z c = B.marg Z c := BN.noEffect hB hn hdo hkn (fun z hz v hv hc => by
    rw [hk, List.mem_singleton] at hv
    subst hv
    exact hr z hz (Relation.ReflTransGen.mono (fun u w h => (hge w h.1 u).1 h.2) _ _ hc)) fun v _ hv => c1 v hv
  have hz := hp c c1 cX
  have e1 : B.marg (T ++ X :: Z) (upd b X x) = B.marg (T ++ X :: Z) c := hB.marg_dep _ _ _ fun v hv => by
    rw [c2 v (by simp at hv ⊢; tauto)]
  have e2 : B.marg (X :: Z) (upd b X x) = B.marg (X :: Z) c := hB.marg_dep _ _ _ fun v hv => by
    rw [c2 v (by simp at hv ⊢; tauto)]
  have e3 : B.marg Z b = B.marg Z c := hB.marg_dep _ _ _ fun v hv => by
    rw [c2 v (by simp; tauto), upd_ne _ _ (hZ v hv).2]
  have e4 : (B.doBN [(X, x)]).marg (Z ++ T) b = (B.doBN [(X, x)]).marg (T ++ Z) c := by
    rw [BN.marg_congr_set (ws := T ++ Z) fun v _ => by simp only [List.mem_append]; tauto]
    refine (hB.doBN _).marg_dep _ _ _ fun v hv => ?_
    rw [c2 v (List.mem_cons_of_mem _ hv), upd_ne _ _ ((List.mem_append.1 hv).elim (fun h => (hT v h).2.1) fun h => (hZ v h).2)]
  rw [e1, e2, e3, e4, BN.doMarg_eq hkn, div_mul_eq_mul_div, eq_div_iff hz, ← hno]
  exact key.symm

/-- **C85** when the adjusting variables `Z` are not reached from `X` and separate it from the target in the graph without
the edges out of `X`, the library's expression for adjustment, `(P(T | X, Z).R(X=x) * P(Z)) ** Z`, with the answers of the
observational queries, is the answer of `causal_query` with `X=x` imposed. -/
theorem C85_adjustment {ch : Choices V} (hch : ch.Ok) {m : SCM II LL} {B : BN V S K} (h : CausalOk m B) {T Z : List V} {X : V} {x : S}
    (hT : T ≠ []) (hTn : T.Nodup) (hX : X ∈ B.nodes) (hx : x ∈ B.states X) (hTv : ∀ t ∈ T, t ∈ B.nodes ∧ t ≠ X ∧ t ∉ Z)
    (hZ : Z ≠ []) (hZn : Z.Nodup) (hZv : ∀ z ∈ Z, z ∈ B.nodes ∧ z ≠ X)
    (hr : ∀ z ∈ Z, ¬ Relation.ReflTransGen (fun u w => (u, w) ∈ m.base.graph.edges) X z)
    (hs : X ∈ (m.base.graph.removeOutgoing [X]).dsepNodes T Z)
    (hp : ∀ a, B.InStates a → a X = x → B.marg (X :: Z) a ≠ 0) :
    ∃ m' r fc fz e1 e2 s, new m = .ok m' ∧ causalQuery ch m' T [(X, x)] none = .ok r ∧
      ((VEObj.new m'.base : VEObj _ II).queryCond ch T (X :: Z) none).2 = .ok fc ∧
      ((VEObj.new m'.base : VEObj _ II).query ch Z none).2 = .ok fz ∧
      fc.restrict [(X, x)] = .ok e1 ∧ e1.multiply fz = .ok e2 ∧ e2.marginalize Z = .ok s ∧ SameTable T r s := by
  have hI := storeOf_lawful (V := V) (S := S) (α := Fl K) vt
  have hk : Dict.keys [(X, x)] = [X] := rfl
  have hg0 : ∀ v s, Dict.get? [(X, x)] v = some s → v = X ∧ s = x := by
    intro v s hvs
    have hv := Dict.mem_keys_of_mem (Dict.mem_of_get? hvs)
    rw [hk, List.mem_singleton] at hv
    subst hv
    rw [Dict.get?_of_mem (by simp [Dict.keys]) List.mem_cons_self] at hvs
    cases hvs; exact ⟨rfl, rfl⟩
  have hevd : EvOk B [(X, x)] := ⟨by simp [hk], by simpa [hk] using hX, fun v s hvs => by
    obtain ⟨rfl, rfl⟩ := hg0 v s hvs; exact hx⟩
  have hev0 : EvOk B ([] : Obs V S) := ⟨by simp [Dict.keys], by simp [Dict.keys], fun v s hvs => by cases hvs⟩
  have hd1 : B.doMarg [(X, x)] [] (asg []) = 1 := by
    rw [← BN.doMarg_eq hevd.nodes]
    exact marg_nil (h.valid.doBN _) (BN.Normalised.doBN h.valid h.norm fun v s hvs _ => hevd.states v s hvs) _
  have hm1 : B.marg [] (asg []) = 1 := marg_nil h.valid h.norm _
  obtain ⟨m', r, q1, q2, _, q4, q5, _, q7⟩ := C42_interventional hch h hT hTn (d := [(X, x)]) (ev := []) (e := none)
    (fun t ht => ⟨(hTv t ht).1, by simp [Dict.keys], by simpa [hk] using (hTv t ht).2.1⟩) hevd hev0 rfl
    (by show B.doMarg [(X, x)] [] (asg []) ≠ 0; rw [hd1]; exact one_ne_zero)
  obtain ⟨m'', n1, n2, n3, n4, _, _⟩ := new_ok h
  rw [q1] at n1
  cases n1
  have hrep := n2.represents n3
  obtain ⟨fc, c1, c2, c3, c4, c5, _, c7⟩ := C39_conditional_any_store hch (VEObj.new m'.base : VEObj _ II) hrep h.valid h.norm (T := T) (C := X :: Z)
    (ev := []) (e := none) hTn (fun t ht hc => (List.mem_cons.1 hc).elim (hTv t ht).2.1 (hTv t ht).2.2) (by simp)
    (fun t ht => (List.mem_append.1 ht).elim (fun ht => (hTv t ht).1) fun ht => (List.mem_cons.1 ht).elim (fun e => e ▸ hX) fun ht => (hZv t ht).1)
    hev0 (by simp [Dict.keys]) rfl (by show B.marg [] (asg []) ≠ 0; rw [hm1]; exact one_ne_zero)
  obtain ⟨fz, z1, z2, z3, z4, z5, z6⟩ := C36_exact_posterior hch (VEObj.new m'.base : VEObj _ II) hrep h.valid h.norm (T := Z) (ev := []) (e := none)
    ⟨hZ, hZn, fun z hz => (hZv z hz).1, hev0, by simp [Dict.keys]⟩ rfl (by show B.marg [] (asg []) ≠ 0; rw [hm1]; exact one_ne_zero)
  have hk0 : Dict.keys ([] : Obs V S) = [] := rfl
  -- the restricted conditional
  have hoo : ObsOk fc.dom [(X, x)] := by
    intro p hq s hs'
    obtain ⟨e, rfl⟩ := hg0 _ _ hs'
    rw [c3 p hq, e]; exact hx
  obtain ⟨e1, r1, r2, r3, _, _, r6⟩ := Factor.restrict_ok hI c2 hoo
  have hv1 : ∀ v, v ∈ e1.vars ↔ v ∈ T ∨ v ∈ Z := by
    intro v
    rw [Factor.vars, r3, Dict.keys_filter_key fc.dom (fun v => v ∉ Dict.keys [(X, x)]), List.mem_filter]
    show v ∈ fc.vars ∧ _ ↔ _
    rw [c4 v, hk]
    simp only [List.mem_cons, List.not_mem_nil, or_false, decide_eq_true_eq]
    constructor
    · rintro ⟨h1 | h1 | h1, h2⟩
      · exact .inl h1
      · exact absurd h1 h2
      · exact .inr h1
    · rintro (h1 | h1)
      · exact ⟨.inl h1, (hTv v h1).2.1⟩
      · exact ⟨.inr (.inr h1), (hZv v h1).2⟩
  have hover : ∀ a : V → S, over [(X, x)] a = upd a X x := by
    intro a
    funext v
    by_cases hv : v = X
    · subst hv
      rw [upd_same, over_of_get? (Dict.get?_of_mem (by simp [Dict.keys]) List.mem_cons_self)]
    · rw [upd_ne _ _ hv, BN.over_not (by simpa [hk] using hv)]
  have rep1 : Factor.Rep B.states e1 (fun b => B.marg (T ++ X :: Z) (upd b X x) / B.marg (X :: Z) (upd b X x)) := by
    refine ⟨r2, fun p hp => ?_, fun a ha => ?_⟩
    · rw [r3] at hp; exact c3 p (List.mem_filter.1 hp).1
    · have hdom : ∀ p ∈ e1.dom, p.2 = B.states p.1 := fun p hp => by rw [r3] at hp; exact c3 p (List.mem_filter.1 hp).1
      have ha' : ∀ v ∈ fc.vars, upd a X x v ∈ B.states v := by
        intro v hv
        by_cases e : v = X
        · subst e; rw [upd_same]; exact hx
        · rw [upd_ne _ _ e]
          refine ha v ((hv1 v).2 ?_)
          rcases (c4 v).1 hv with h1 | h1
          · exact .inl h1
          · exact .inr ((List.mem_cons.1 h1).resolve_left e)
      rw [r6 a (Factor.inDom_of_states hdom ha), hover]
      have hi := Factor.inDom_of_states c3 ha'
      have hc : Covers fc.dom (fc.dom.map fun p => (p.1, upd a X x p.1)) (upd a X x) := by
        intro v hv
        obtain ⟨st, hst⟩ := Dict.mem_keys.1 hv
        refine Dict.get?_of_mem ?_ (List.mem_map.2 ⟨(v, st), hst, rfl⟩)
        have := (c2.domOk hI).keys
        simpa [Dict.keys, Function.comp_def] using this
      have hasg : ∀ v ∈ fc.vars, (asg (fc.dom.map fun p => (p.1, upd a X x p.1)) : V → S) v = upd a X x v := fun v hv => by
        rw [asg, over_of_get? (hc v hv)]
      have m1 : B.marg (T ++ X :: Z) (asg (fc.dom.map fun p => (p.1, upd a X x p.1))) = B.marg (T ++ X :: Z) (upd a X x) :=
        h.valid.marg_dep _ _ _ fun v hv => hasg v ((c4 v).2 (List.mem_append.1 hv))
      have m2 : B.marg (X :: Z) (asg (fc.dom.map fun p => (p.1, upd a X x p.1))) = B.marg (X :: Z) (upd a X x) :=
        h.valid.marg_dep _ _ _ fun v hv => hasg v ((c4 v).2 (.inr hv))
      have hne : B.marg (X :: Z) (upd a X x) ≠ 0 := by
        obtain ⟨c, d1, d2⟩ := h.valid.complete (L := X :: Z) (a := upd a X x) (fun v hv _ => ha' v ((c4 v).2 (.inr hv)))
        rw [h.valid.marg_dep _ _ c fun v hv => (d2 v hv).symm]
        exact hp c d1 (by rw [d2 X List.mem_cons_self, upd_same])
      have hv := c7 _ (fullObs_of_covers hi hc) (by rw [hk0, List.append_nil, List.nil_append, m2]; exact hne)
      rw [Factor.getValue_ok hI c2 hi hc, hk0, List.append_nil, List.nil_append, m1, m2] at hv
      exact Except.ok.inj hv
  have rep2 : Factor.Rep B.states fz (B.marg Z) := by
    refine FExpr.rep_of_reads hI z2 z3 fun obs a ha hc => ?_
    rw [z6 obs (fullObs_of_covers ha hc), hk0, hm1, List.append_nil, List.nil_append, div_one,
      h.valid.marg_dep _ _ a fun v hv => by rw [asg, over_of_get? (hc v ((z4 v).2 hv))]]
  obtain ⟨e2, p1, p2, p3, _⟩ := FExpr.apply_rep hI .mul rep1 rep2 (by simp)
  have hv2 : ∀ v, v ∈ e2.vars ↔ v ∈ T ∨ v ∈ Z := by
    intro v
    simp only [p3, List.mem_append, List.mem_filter, hv1 v, z4 v, decide_eq_true_eq]
    tauto
  obtain ⟨s, s1, s2, _, s4, _⟩ := p2.marginalize hI (xs := Z) (fun z hz => (hv2 z).2 (.inr hz)) hZn
  have hvs : ∀ v, v ∈ s.vars ↔ v ∈ T := by
    intro v
    rw [s4 v, hv2 v]
    constructor
    · rintro ⟨h1 | h1, h2⟩
      · exact h1
      · exact absurd h1 h2
    · exact fun h1 => ⟨.inl h1, (hTv v h1).2.2⟩
  refine ⟨m', r, fc, fz, e1, e2, s, q1, q2, c1, z1, r1, p1, s1, q5, hvs, fun obs ho => ⟨_, q7 obs ho, ?_⟩⟩
  have ho1 := fullObs_states q4 q5 ho
  rw [s2.getValue hI (fullObs_of_states s2.dom hvs ho1), hk0, hd1, List.append_nil, List.nil_append, div_one]
  have hs' : (m.base.graph.removeOutgoing [X]).dSeparated T [X] Z = true := by
    have := (List.mem_filter.1 hs).2
    rwa [List.filter_eq_self.2 fun z hz => by simpa using (hZv z hz).2] at this
  rw [adjust_sum h.valid h.norm h.rep.wf h.rep.nodes h.rep.parents hX hx hTv hZv hZn hr hs' hp fun t ht => by
    obtain ⟨s, h1, h2⟩ := ho1 t ht
    rw [asg, over_of_get? h2]; exact h1]
  rfl

end Props
end Verif
