import Verif.Inference.CausalLemmas

/-!
# Counterfactual queries: helper lemmas
-/

set_option linter.unusedSectionVars false
set_option linter.unusedSimpArgs false

namespace Verif

variable {V S K : Type} [DecidableEq V] [DecidableEq S] [Inhabited S] [Field K] [LinearOrder K] [IsStrictOrderedRing K] {vt : VType}

local notation "II" => (storeOf vt : StoreImpl V S (Fl K))
local notation "LL" => (labelStoreOf vt : LabelStore V S)

theorem Dict.set_new {κ ν : Type} [DecidableEq κ] {d : List (κ × ν)} {k : κ} {x : ν} (h : k ∉ Dict.keys d) : Dict.set d k x = d ++ [(k, x)] := by
  rw [Dict.set, if_neg h]

theorem foldl_set {κ ν : Type} [DecidableEq κ] {l d : List (κ × ν)} (h : (Dict.keys (d ++ l)).Nodup) :
    l.foldl (fun d q => Dict.set d q.1 q.2) d = d ++ l := by
  induction l generalizing d with
  | nil => simp
  | cons q l ih =>
    have hq : q.1 ∉ Dict.keys d := by
      rw [Dict.keys_append, Dict.keys_cons, List.nodup_append'] at h
      exact fun hc => h.2.2 hc List.mem_cons_self
    rw [List.foldl_cons, Dict.set_new hq, ih (by simpa using h)]
    simp

namespace Causal

/-- The hypothetical worlds of a counterfactual query: `dos` are the states imposed in each of them. -/
structure WorldsOk (B : BN V S K) (sfx : V → Nat → V) (dos : List (Obs V S)) : Prop where
  doNodup : ∀ d ∈ dos, (Dict.keys d).Nodup
  /-- only endogenous variables are intervened -/
  doInner : ∀ d ∈ dos, ∀ v ∈ Dict.keys d, v ∈ B.inner
  doStates : ∀ d ∈ dos, ∀ v s, Dict.get? d v = some s → s ∈ B.states v
  /-- each has a child that is not intervened in the same world -/
  used : ∀ d ∈ dos, ∀ v ∈ Dict.keys d, ∃ c ∈ B.nodes, v ∈ B.parents c ∧ c ∉ Dict.keys d
  /-- the names of the copies are new and distinct -/
  fresh : ∀ v ∈ B.inner, ∀ i, 1 ≤ i → i ≤ dos.length → sfx v i ∉ B.nodes
  inj : ∀ v ∈ B.inner, ∀ w ∈ B.inner, ∀ i j, 1 ≤ i → i ≤ dos.length → 1 ≤ j → j ≤ dos.length → sfx v i = sfx w j → v = w ∧ i = j

/-- What a counterfactual query asks for: `tg` are the targets, each with the number of its world. -/
structure CfOk (B : BN V S K) (sfx : V → Nat → V) (dos : List (Obs V S)) (tg : List (V × Nat)) : Prop extends WorldsOk B sfx dos where
  nonempty : tg ≠ []
  nodup : tg.Nodup
  /-- targets are endogenous, of an existing world, and not intervened there -/
  target : ∀ q ∈ tg, q.1 ∈ B.inner ∧ 1 ≤ q.2 ∧ q.2 ≤ dos.length ∧ ∀ d, dos[q.2 - 1]? = some d → q.1 ∉ Dict.keys d

/-- The states of the targets of one world. -/
noncomputable def targetObs (sfx : V → Nat → V) (tg : List (V × Nat)) (obs : Obs V S) (i : Nat) : Obs V S :=
  (tg.filter fun q => q.2 = i).map fun q => (q.1, asg obs (sfx q.1 q.2))

/-- The imposed states under their new names. -/
def doNames (sfx : V → Nat → V) (dos : List (Obs V S)) : Obs V S :=
  dos.zipIdx.flatMap fun p => p.1.map fun q => (sfx q.1 (p.2 + 1), q.2)

variable {B : BN V S K} {sfx : V → Nat → V} {dos : List (Obs V S)} {tg : List (V × Nat)}

namespace WorldsOk

theorem twinOk (h : WorldsOk B sfx dos) (hB : B.Valid) (hn : B.Normalised)
    (he : ∀ v ∈ B.inner, ∀ a, B.InStates a → B.table v a = 0 ∨ B.table v a = 1) : B.TwinOk B.roots B.inner sfx dos where
  valid := hB
  norm := hn
  perm := B.roots_inner
  roots := fun _ hx => (BN.mem_roots.1 hx).2
  zeroOne := he
  doKeys := h.doInner
  doOk := fun d hd v s hs _ => h.doStates d hd v s hs
  fresh := h.fresh
  inj := h.inj

theorem used' (h : WorldsOk B sfx dos) : ∀ d ∈ dos, ∀ v ∈ B.inner,
    (v ∉ Dict.keys d ∧ B.parents v ≠ []) ∨ ∃ c ∈ B.nodes, v ∈ B.parents c ∧ c ∉ Dict.keys d := by
  intro d hd v hv
  by_cases hc : v ∈ Dict.keys d
  · exact .inr (h.used d hd v hc)
  · exact .inl ⟨hc, (BN.mem_inner.1 hv).2⟩

end WorldsOk

namespace CfOk

theorem mem_names (h : CfOk B sfx dos tg) {w : V} {s : S} :
    (w, s) ∈ doNames sfx dos ↔ ∃ p ∈ dos.zipIdx, ∃ v, Dict.get? p.1 v = some s ∧ w = sfx v (p.2 + 1) := by
  rw [doNames, List.mem_flatMap]
  refine exists_congr fun p => and_congr_right fun hp => ?_
  rw [List.mem_map]
  constructor
  · rintro ⟨q, hq, e⟩
    injection e with e1 e2
    exact ⟨q.1, by rw [← e2]; exact Dict.get?_of_mem (h.doNodup p.1 (mem_zipIdx hp).2.2) hq, e1.symm⟩
  · rintro ⟨v, hv, rfl⟩
    exact ⟨(v, s), Dict.mem_of_get? hv, rfl⟩

theorem names_nodup (h : CfOk B sfx dos tg) : (Dict.keys (doNames sfx dos)).Nodup := by
  rw [Dict.keys, doNames, List.map_flatMap, List.nodup_flatMap]
  refine ⟨fun p hp => ?_, (pairwise_zipIdx dos).imp_of_mem fun {p q} hp hq hpq w hw hw' => ?_⟩
  · have h1 := mem_zipIdx hp
    rw [List.map_map]
    have : ((fun x => x.1) ∘ fun q : V × S => (sfx q.1 (p.2 + 1), q.2)) = (fun v => sfx v (p.2 + 1)) ∘ Prod.fst := rfl
    rw [this, ← List.map_map]
    exact List.Nodup.map_on (fun v hv w hw e => (h.inj v (h.doInner p.1 h1.2.2 v hv) w (h.doInner p.1 h1.2.2 w hw) _ _ (by omega) (by omega)
      (by omega) (by omega) e).1) (h.doNodup p.1 h1.2.2)
  · have h1 := mem_zipIdx hp
    have h2 := mem_zipIdx hq
    simp only [List.map_map] at hw hw'
    obtain ⟨x, hx, rfl⟩ := List.mem_map.1 hw
    obtain ⟨y, hy, e⟩ := List.mem_map.1 hw'
    have := (h.inj y.1 (h.doInner q.1 h2.2.2 _ (Dict.mem_keys_of_mem hy)) x.1 (h.doInner p.1 h1.2.2 _ (Dict.mem_keys_of_mem hx)) _ _
      (by omega) (by omega) (by omega) (by omega) e).2
    exact hpq (by omega)

theorem cfDo_eq (h : CfOk B sfx dos tg) : cfDo sfx dos = doNames sfx dos := by
  have := foldl_set (d := []) (l := doNames sfx dos) (by simpa using h.names_nodup)
  rw [List.nil_append] at this
  exact this

theorem names_fresh (h : CfOk B sfx dos tg) : ∀ w ∈ Dict.keys (doNames sfx dos), w ∉ B.nodes := by
  intro w hw
  obtain ⟨s, hs⟩ := Dict.mem_keys.1 hw
  obtain ⟨p, hp, v, hv, rfl⟩ := h.mem_names.1 hs
  have h1 := mem_zipIdx hp
  exact h.fresh v (h.doInner p.1 h1.2.2 v (Dict.mem_keys_of_mem (Dict.mem_of_get? hv))) _ (by omega) (by omega)

theorem evid_eq (h : CfOk B sfx dos tg) {ev : Obs V S} (hev : EvOk B ev) :
    Dict.merge ev (cfDo sfx dos) = ev ++ doNames sfx dos := by
  rw [h.cfDo_eq, Dict.merge]
  congr 1
  · conv_rhs => rw [← List.map_id ev]
    refine List.map_congr_left fun p hp => ?_
    have : Dict.get? (doNames sfx dos) p.1 = none :=
      Dict.get?_eq_none.2 fun hc => h.names_fresh _ hc (hev.nodes _ (Dict.mem_keys_of_mem hp))
    rw [this]; rfl
  · refine List.filter_eq_self.2 fun p hp => ?_
    simpa using fun hc => h.names_fresh _ (Dict.mem_keys_of_mem hp) (hev.nodes _ hc)

theorem target_fresh (h : CfOk B sfx dos tg) : ∀ q ∈ tg, sfx q.1 q.2 ∉ B.nodes := fun q hq =>
  h.fresh q.1 (h.target q hq).1 _ (h.target q hq).2.1 (h.target q hq).2.2.1

theorem world_of (h : CfOk B sfx dos tg) {q : V × Nat} (hq : q ∈ tg) : ∃ p ∈ dos.zipIdx, q.2 = p.2 + 1 := by
  obtain ⟨_, h1, h2, _⟩ := h.target q hq
  refine ⟨(dos[q.2 - 1]'(by omega), q.2 - 1), ?_, by simp; omega⟩
  rw [List.mem_zipIdx_iff_getElem?]
  simp

theorem target_not_do (h : CfOk B sfx dos tg) : ∀ q ∈ tg, sfx q.1 q.2 ∉ Dict.keys (doNames sfx dos) := by
  intro q hq hc
  obtain ⟨s, hs⟩ := Dict.mem_keys.1 hc
  obtain ⟨p, hp, v, hv, e⟩ := h.mem_names.1 hs
  have h1 := mem_zipIdx hp
  obtain ⟨t1, t2, t3, t4⟩ := h.target q hq
  have hvk := Dict.mem_keys_of_mem (Dict.mem_of_get? hv)
  obtain ⟨e1, e2⟩ := h.inj q.1 t1 v (h.doInner p.1 h1.2.2 v hvk) _ _ t2 t3 (by omega) (by omega) e
  refine t4 p.1 ?_ (e1 ▸ hvk)
  rw [e2]; exact h1.1

theorem targetObs_get (h : CfOk B sfx dos tg) (obs : Obs V S) (i : Nat) {v : V} {s : S} :
    Dict.get? (targetObs sfx tg obs i) v = some s ↔ (v, i) ∈ tg ∧ s = asg obs (sfx v i) := by
  have hn : (Dict.keys (targetObs sfx tg obs i)).Nodup := by
    rw [Dict.keys, targetObs, List.map_map]
    refine List.Nodup.map_on (fun q hq q' hq' e => ?_) (h.nodup.filter _)
    have e1 := (List.mem_filter.1 hq).2
    have e2 := (List.mem_filter.1 hq').2
    simp only [decide_eq_true_eq] at e1 e2
    exact Prod.ext e (e1.trans e2.symm)
  rw [Dict.get?_iff_mem hn, targetObs, List.mem_map]
  constructor
  · rintro ⟨q, hq, e⟩
    injection e with e1 e2
    obtain ⟨h1, h2⟩ := List.mem_filter.1 hq
    simp only [decide_eq_true_eq] at h2
    subst h2 e1
    exact ⟨h1, e2.symm⟩
  · rintro ⟨hq, rfl⟩
    exact ⟨(v, i), List.mem_filter.2 ⟨hq, by simp⟩, rfl⟩

theorem targetObs_keys (h : CfOk B sfx dos tg) (obs : Obs V S) (i : Nat) : ∀ v ∈ Dict.keys (targetObs sfx tg obs i), (v, i) ∈ tg := by
  intro v hv
  obtain ⟨s, hs⟩ := Option.isSome_iff_exists.1 (Dict.get?_isSome.2 hv)
  exact ((h.targetObs_get obs i).1 hs).1

end CfOk

/-- In a solution, the imposed states hold. -/
theorem agrees_names (h : CfOk B sfx dos tg) {b : V → S}
    (hs : ∀ p ∈ dos.zipIdx, B.Solves B.inner p.1 fun w => b (copyName sfx B.inner (p.2 + 1) w)) :
    ∀ v s, Dict.get? (doNames sfx dos) v = some s → b v = s := by
  intro v s hv
  obtain ⟨p, hp, x, hx, rfl⟩ := h.mem_names.1 (Dict.mem_of_get? hv)
  have hxi := h.doInner p.1 (mem_zipIdx hp).2.2 x (Dict.mem_keys_of_mem (Dict.mem_of_get? hx))
  have : b (copyName sfx B.inner (p.2 + 1) x) = s := (hs p hp x hxi).2.1 s hx
  rw [BN.TwinOk.copy_endo hxi] at this
  exact this

theorem link_evidence (h : CfOk B sfx dos tg) {ev : Obs V S} (hev : EvOk B ev) {b : V → S}
    (hs : ∀ p ∈ dos.zipIdx, B.Solves B.inner p.1 fun w => b (copyName sfx B.inner (p.2 + 1) w)) (obs : Obs V S) :
    (∀ v ∈ Dict.keys (ev ++ doNames sfx dos), b v = asg (ev ++ doNames sfx dos ++ obs) v) ↔ BN.Agrees ev b := by
  constructor
  · intro hb v s hv
    have hk : v ∈ Dict.keys (ev ++ doNames sfx dos) := by
      rw [Dict.keys_append]; exact List.mem_append_left _ (Dict.mem_keys_of_mem (Dict.mem_of_get? hv))
    rw [hb v hk, asg]
    exact over_of_get? (by simp [hv])
  · intro hag v hv
    rw [Dict.keys_append, List.mem_append] at hv
    by_cases hve : v ∈ Dict.keys ev
    · obtain ⟨s, hs⟩ := Option.isSome_iff_exists.1 (Dict.get?_isSome.2 hve)
      rw [hag v s hs, asg]
      exact (over_of_get? (by simp [hs])).symm
    · obtain ⟨s, hs'⟩ := Option.isSome_iff_exists.1 (Dict.get?_isSome.2 (hv.resolve_left hve))
      rw [agrees_names h hs v s hs', asg]
      exact (over_of_get? (by simp [hs', Dict.get?_eq_none.2 hve])).symm

theorem link_targets (h : CfOk B sfx dos tg) {ev : Obs V S} (hev : EvOk B ev) {b : V → S}
    (hs : ∀ p ∈ dos.zipIdx, B.Solves B.inner p.1 fun w => b (copyName sfx B.inner (p.2 + 1) w)) (obs : Obs V S) :
    (∀ v ∈ (tg.map fun q => sfx q.1 q.2) ++ Dict.keys (ev ++ doNames sfx dos), b v = asg (ev ++ doNames sfx dos ++ obs) v) ↔
      BN.Agrees ev b ∧ ∀ p ∈ dos.zipIdx, BN.Agrees (targetObs sfx tg obs (p.2 + 1)) fun w => b (copyName sfx B.inner (p.2 + 1) w) := by
  rw [List.forall_mem_append, link_evidence h hev hs obs, and_comm]
  refine and_congr_right fun _ => ?_
  have hval : ∀ q ∈ tg, asg (ev ++ doNames sfx dos ++ obs) (sfx q.1 q.2) = (asg obs (sfx q.1 q.2) : S) := by
    intro q hq
    rw [asg_append]
    refine over_of_not_mem ?_
    rw [Dict.keys_append, List.mem_append, not_or]
    exact ⟨fun hc => h.target_fresh q hq (hev.nodes _ hc), h.target_not_do q hq⟩
  constructor
  · intro hb p hp v s hv
    obtain ⟨h1, rfl⟩ := (h.targetObs_get obs _).1 hv
    rw [← hval _ h1, ← hb _ (List.mem_map.2 ⟨_, h1, rfl⟩)]
    show b (copyName sfx B.inner (p.2 + 1) v) = _
    rw [BN.TwinOk.copy_endo (h.target _ h1).1]
  · intro hb v hv
    obtain ⟨q, hq, rfl⟩ := List.mem_map.1 hv
    obtain ⟨p, hp, e⟩ := h.world_of hq
    have hq' : (q.1, p.2 + 1) ∈ tg := by rw [← e]; exact hq
    have := hb p hp q.1 _ ((h.targetObs_get obs _).2 ⟨hq', rfl⟩)
    rw [hval q hq, e, ← this]
    show _ = b (copyName sfx B.inner (p.2 + 1) q.1)
    rw [BN.TwinOk.copy_endo (h.target _ hq').1]

/-- The answer of a counterfactual query on the compiled model. -/
theorem cf_core {ch : Choices V} (hch : ch.Ok) {m : SCM II LL} (hr : m.Rep B) (hmu : m.Multi) (hen : m.endogenous = B.inner)
    (hex : m.exogenous = B.roots) (hB : B.Valid) (hn : B.Normalised)
    (he : ∀ v ∈ B.inner, ∀ a, B.InStates a → B.table v a = 0 ∨ B.table v a = 1) (h : CfOk B sfx dos tg) {ev : Obs V S} (hev : EvOk B ev)
    (hp : B.cfProb B.roots B.inner [([], ev)] ≠ 0) {e : Option (Obs V S)} (hee : e.getD [] = ev) {target : List V} {subs : Option (List Nat)}
    (hT : cfTarget sfx target subs = tg.map fun q => sfx q.1 q.2) :
    ∃ r, counterfactualQuery sfx ch m target dos e subs = .ok r ∧ r.WF ∧
      (∀ v, v ∈ r.vars ↔ ∃ q ∈ tg, v = sfx q.1 q.2) ∧ (∀ v, v ∈ r.leftVars ↔ ∃ q ∈ tg, v = sfx q.1 q.2) ∧
      (∀ p ∈ r.dom, ∃ q ∈ tg, p.1 = sfx q.1 q.2 ∧ p.2 = B.states q.1) ∧
      ∀ obs, FullObs r.dom obs → r.getValue obs = .ok (.fin
        (B.cfProb B.roots B.inner (([], ev) :: dos.zipIdx.map fun p => (p.1, targetObs sfx tg obs (p.2 + 1))) /
          B.cfProb B.roots B.inner [([], ev)])) := by
  have ht := h.toWorldsOk.twinOk hB hn he
  have ht' : B.TwinOk m.exogenous m.endogenous sfx dos := by rw [hen, hex]; exact ht
  obtain ⟨m', nodes, c1, c2, c3, c4, _, _, c7⟩ := cfModel_ok hch.setOrd hr ht' (by rw [hen]; exact h.toWorldsOk.used')
  rw [hen] at c2 c4
  have hg := ht.glueOk c3 c4
  have hrep := c2.represents (c7 hmu)
  have hnorm := ht.normalised hg
  have hsub : ∀ q ∈ tg, sfx q.1 q.2 ∈ nodes ∧ (BN.glue B (B.twins B.inner sfx dos) nodes).states (sfx q.1 q.2) = B.states q.1 := by
    intro q hq
    obtain ⟨p, hp, e⟩ := h.world_of hq
    have := (ht.table_copy hg (h.target q hq).1 hp).2
    rw [← e] at this
    exact ⟨(c4 _).2 (.inr ⟨p, hp, q.1, (h.target q hq).1, by rw [e]⟩), this⟩
  have hevg : EvOk (BN.glue B (B.twins B.inner sfx dos) nodes) (ev ++ doNames sfx dos) := by
    refine ⟨?_, fun v hv => ?_, fun v s hv => ?_⟩
    · rw [Dict.keys_append, List.nodup_append']
      exact ⟨hev.nodup, h.names_nodup, fun v hv hv' => h.names_fresh v hv' (hev.nodes v hv)⟩
    · rw [Dict.keys_append, List.mem_append] at hv
      refine (c4 v).2 ?_
      rcases hv with hv | hv
      · exact .inl (hev.nodes v hv)
      · obtain ⟨s, hs⟩ := Dict.mem_keys.1 hv
        obtain ⟨p, hp, x, hx, e⟩ := h.mem_names.1 hs
        exact .inr ⟨p, hp, x, h.doInner p.1 (mem_zipIdx hp).2.2 x (Dict.mem_keys_of_mem (Dict.mem_of_get? hx)), e⟩
    · rw [Dict.get?_append] at hv
      cases hve : Dict.get? ev v with
      | some t =>
        rw [hve] at hv
        have : t = s := by simpa using hv
        subst this
        rw [hg.states_eq List.mem_cons_self (hev.nodes v (Dict.mem_keys_of_mem (Dict.mem_of_get? hve)))]
        exact hev.states v t hve
      | none =>
        rw [hve] at hv
        have hv : Dict.get? (doNames sfx dos) v = some s := by simpa using hv
        obtain ⟨p, hp, x, hx, rfl⟩ := h.mem_names.1 (Dict.mem_of_get? hv)
        rw [(ht.table_copy hg (h.doInner p.1 (mem_zipIdx hp).2.2 x (Dict.mem_keys_of_mem (Dict.mem_of_get? hx))) hp).2]
        exact h.doStates p.1 (mem_zipIdx hp).2.2 x s hx
  have hq : Props.GoodQuery (BN.glue B (B.twins B.inner sfx dos) nodes) (tg.map fun q => sfx q.1 q.2) (ev ++ doNames sfx dos) := by
    refine ⟨by simpa using h.nonempty, ?_, fun v hv => ?_, hevg, fun v hv => ?_⟩
    · refine List.Nodup.map_on (fun q hq q' hq' e => ?_) h.nodup
      obtain ⟨a1, a2, a3, _⟩ := h.target q hq
      obtain ⟨b1, b2, b3, _⟩ := h.target q' hq'
      obtain ⟨e1, e2⟩ := h.inj _ a1 _ b1 _ _ a2 a3 b2 b3 e
      exact Prod.ext e1 e2
    · obtain ⟨q, hq, rfl⟩ := List.mem_map.1 hv
      exact (hsub q hq).1
    · obtain ⟨q, hq, rfl⟩ := List.mem_map.1 hv
      rw [Dict.keys_append, List.mem_append, not_or]
      exact ⟨fun hc => h.target_fresh q hq (hev.nodes _ hc), h.target_not_do q hq⟩
  have hevst : ∀ obs : Obs V S, ∀ v ∈ Dict.keys (ev ++ doNames sfx dos), (asg (ev ++ doNames sfx dos ++ obs) : V → S) v ∈
      (BN.glue B (B.twins B.inner sfx dos) nodes).states v := by
    intro obs v hv
    obtain ⟨s, hs⟩ := Option.isSome_iff_exists.1 (Dict.get?_isSome.2 hv)
    rw [asg_append, over_of_get? hs]
    exact hevg.states v s hs
  -- the denominator
  have hden : (BN.glue B (B.twins B.inner sfx dos) nodes).marg (Dict.keys (ev ++ doNames sfx dos)) (asg (ev ++ doNames sfx dos)) =
      B.cfProb B.roots B.inner [([], ev)] := by
    have h1 := ht.marg c3 c4 (vs := Dict.keys (ev ++ doNames sfx dos)) (a := asg (ev ++ doNames sfx dos)) hevg.nodes
      (by have := hevst []; rw [List.append_nil] at this; exact this)
      (c0 := ev) (cs := fun _ => []) hev.nodes (fun _ _ v hv => by cases hv) (fun b _ hs => by
        have := link_evidence h hev hs []
        rw [List.append_nil] at this
        rw [this]
        exact ⟨fun hh => ⟨hh, fun p _ v s hv => by cases hv⟩, fun hh => hh.1⟩)
    rw [h1]
    refine BN.cfProb_congr ht.nodup.1 fun u hu => ?_
    constructor
    · intro hw w hw'
      rw [List.mem_singleton.1 hw']
      exact hw _ List.mem_cons_self
    · intro hw w hw'
      rcases List.mem_cons.1 hw' with rfl | hw'
      · exact hw _ List.mem_cons_self
      · obtain ⟨p, hp, rfl⟩ := List.mem_map.1 hw'
        exact ht.holds_nil (.inl (mem_zipIdx hp).2.2) hu
  obtain ⟨r, q1, q2, q3, q4, q5, q6⟩ := Props.C36_exact_posterior hch (VEObj.new m'.base : VEObj _ II) hrep hg.glueValid hnorm hq
    (e := some (ev ++ doNames sfx dos)) rfl (by rw [hden]; exact hp)
  refine ⟨r, ?_, q2, fun v => ?_, fun v => ?_, fun p hp => ?_, fun obs ho => ?_⟩
  · have hk : ∀ d ∈ dos, ∀ v ∈ Dict.keys d, v ∈ m.base.graph.nodes := fun d hd v hv => by
      rw [hr.nodes]; exact (BN.mem_inner.1 (h.doInner d hd v hv)).1
    rw [counterfactualQuery]
    simp only [hT, hee, h.evid_eq hev]
    rw [if_neg (not_not.2 hk), c1]
    exact q1
  · rw [q4, List.mem_map]; simp only [eq_comm]
  · rw [q5, List.mem_map]; simp only [eq_comm]
  · obtain ⟨q, hq, e⟩ := List.mem_map.1 ((q4 p.1).1 (Dict.mem_keys_of_mem hp))
    refine ⟨q, hq, e.symm, ?_⟩
    rw [q3 p hp, ← e, (hsub q hq).2]
  · rw [q6 obs ho, hden]
    congr 3
    refine ht.marg c3 c4 (fun v hv => ?_) (fun v hv => ?_) hev.nodes (fun p _ v hv => ?_) (fun b _ hs => link_targets h hev hs obs)
    · rcases List.mem_append.1 hv with hv | hv
      · exact hq.nodes v hv
      · exact hevg.nodes v hv
    · rcases List.mem_append.1 hv with hv | hv
      · have : v ∉ Dict.keys (ev ++ doNames sfx dos) := hq.disjoint v hv
        rw [asg_append, over_of_not_mem this]
        exact Factor.states_of_inDom q3 ho.inDom v ((q4 v).2 hv)
      · exact hevst obs v hv
    · exact (BN.mem_inner.1 (h.target _ (h.targetObs_keys obs _ v hv)).1).1

end Causal
end Verif
