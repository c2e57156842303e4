import Verif.Net.Renamed
import Verif.Props.Causal
import Verif.Props.CausalEx

/-!
# Queries on renamed models (C105)

Renaming is `C34`.  Here the answers of a model and of the renamed model are compared with each other: what is asked of the
second is what is asked of the first, in the new names (`newName`, `inNewNames`).
-/

set_option linter.unusedSectionVars false
set_option linter.unusedSimpArgs false

namespace Verif
namespace Props
open Causal

variable {V S K : Type} [DecidableEq V] [DecidableEq S] [Inhabited S] [Field K] [LinearOrder K] {vt : VType}

local notation "II" => (storeOf vt : StoreImpl V S (Fl K))
local notation "LL" => (labelStoreOf vt : LabelStore V S)

/-- An observation in the new names -/
def inNewNames (mapping : List (V × V)) (o : Obs V S) : Obs V S := o.map fun p => (newName mapping p.1, p.2)

/-- `r'` is `r` with the variables renamed: it gives the same value in every state of the variables `T`. -/
def SameRenamed (mapping : List (V × V)) (T : List V) (r r' : Factor II) : Prop :=
  (∀ v, v ∈ r.vars ↔ v ∈ T) ∧ (∀ w, w ∈ r'.vars ↔ w ∈ T.map (newName mapping)) ∧
    ∀ o, FullObs r.dom o → (∀ v ∈ Dict.keys o, v ∈ T) → FullObs r'.dom (inNewNames mapping o) ∧
      ∃ p, r.getValue o = .ok (.fin p) ∧ r'.getValue (inNewNames mapping o) = .ok (.fin p)

theorem inNewNames_eq (mapping : List (V × V)) (o : Obs V S) : inNewNames mapping o = renObs (Factor.renameOne mapping) o := by
  rw [inNewNames, newName_eq]; rfl

theorem evOk_ren {B : BN V S K} {ρ : V → V} (h : B.InjOn ρ) {ev : Obs V S} (hev : EvOk B ev) : EvOk (B.relabel ρ) (renObs ρ ev) where
  nodup := by
    rw [keys_renObs]
    exact List.Nodup.map_on (fun v hv w hw => h v (hev.nodes v hv) w (hev.nodes w hw)) hev.nodup
  nodes := by
    rw [keys_renObs]
    intro w hw
    obtain ⟨v, hv, rfl⟩ := List.mem_map.1 hw
    exact List.mem_map_of_mem (hev.nodes v hv)
  states := by
    intro w s hs
    have hw : w ∈ Dict.keys (renObs ρ ev) := Dict.get?_isSome.1 (by rw [hs]; rfl)
    rw [keys_renObs] at hw
    obtain ⟨v, hv, rfl⟩ := List.mem_map.1 hw
    rw [get?_renObs fun x hx e => h x (hev.nodes x hx) v (hev.nodes v hv) e] at hs
    rw [BN.relabel_states h (hev.nodes v hv)]
    exact hev.states v s hs

theorem notMem_ren {B : BN V S K} {ρ : V → V} (h : B.InjOn ρ) {l : List V} (hl : ∀ v ∈ l, v ∈ B.nodes) {v : V} (hv : v ∈ B.nodes)
    (hn : v ∉ l) : ρ v ∉ l.map ρ := fun hc => by
  obtain ⟨w, hw, e⟩ := List.mem_map.1 hc
  rw [h w (hl w hw) v hv e] at hw
  exact hn hw

/-- Renamed observations of renamed domains -/
theorem fullObs_ren {B : BN V S K} {ρ : V → V} (h : B.InjOn ρ) {T : List V} (hT : ∀ t ∈ T, t ∈ B.nodes) {d d' : Dom V S}
    (hd : ∀ p ∈ d, p.2 = B.states p.1) (hk : ∀ v, v ∈ Dict.keys d ↔ v ∈ T) (hd' : ∀ p ∈ d', p.2 = (B.relabel ρ).states p.1)
    (hk' : ∀ v, v ∈ Dict.keys d' ↔ v ∈ T.map ρ) {o : Obs V S} (ho : FullObs d o) (hoT : ∀ v ∈ Dict.keys o, v ∈ T) :
    FullObs d' (renObs ρ o) := by
  intro p hp
  obtain ⟨v, hv, e⟩ := List.mem_map.1 ((hk' p.1).1 (Dict.mem_keys_of_mem hp))
  obtain ⟨q, hq, e2⟩ := List.mem_map.1 (show v ∈ d.map Prod.fst from (hk v).2 hv)
  obtain ⟨s, hs, hg⟩ := ho q hq
  refine ⟨s, ?_, ?_⟩
  · rw [hd' p hp, ← e, BN.relabel_states h (hT v hv), ← e2, ← hd q hq]; exact hs
  · rw [← e, get?_renObs fun x hx e' => h x (hT x (hoT x hx)) v (hT v hv) e', ← e2]; exact hg

/-- **C105** renaming the variables of a network renames the answers: a query in the new names to the renamed network gives the
factor in the new names, whatever the orders of elimination. -/
theorem C105_query {ch ch' : Choices V} (hch : ch.Ok) (hch' : ch'.Ok) {m : DagModel (AnyFactor II LL) V S} {B : BN V S K}
    (hr : Represents (I := II) m B) (hB : B.Valid) (hn : B.Normalised) {mapping : List (V × V)}
    (hinj : ∀ v ∈ B.nodes, ∀ w ∈ B.nodes, newName mapping v = newName mapping w → v = w) {T : List V} {ev : Obs V S}
    (hq : GoodQuery B T ev) (hp : B.marg (Dict.keys ev) (asg ev) ≠ 0) :
    ∃ m' r r', m.renameVars mapping = .ok m' ∧ ((VEObj.new m : VEObj _ II).query ch T (some ev)).2 = .ok r ∧
      ((VEObj.new m' : VEObj _ II).query ch' (T.map (newName mapping)) (some (inNewNames mapping ev))).2 = .ok r' ∧
      SameRenamed mapping T r r' := by
  simp only [SameRenamed, inNewNames_eq]
  rw [newName_eq] at *
  let ρ := Factor.renameOne mapping
  have hi : B.InjOn ρ := hinj
  obtain ⟨m', h1, h2, _⟩ := hr.renameVars hB hinj
  obtain ⟨r, r1, _, r3, r4, _, r6⟩ := C36_exact_posterior hch (VEObj.new m : VEObj _ II) hr hB hn hq (e := some ev) rfl hp
  have hkn : ∀ v ∈ T ++ Dict.keys ev, v ∈ B.nodes := fun v hv => by
    rcases List.mem_append.1 hv with hv | hv
    · exact hq.nodes v hv
    · exact hq.evidence.nodes v hv
  have hev' : ∀ v ∈ B.nodes, (asg (renObs ρ ev) : V → S) (ρ v) = asg ev v := fun v hv =>
    asg_renObs fun x hx e => hi x (hq.evidence.nodes x hx) v hv e
  have hp0 : (B.relabel ρ).marg (Dict.keys (renObs ρ ev)) (asg (renObs ρ ev)) = B.marg (Dict.keys ev) (asg ev) := by
    rw [keys_renObs, BN.marg_relabel hB hi hq.evidence.nodes]
    exact hB.marg_dep _ _ _ fun v hv => hev' v (hq.evidence.nodes v hv)
  have hq' : GoodQuery (B.relabel ρ) (T.map ρ) (renObs ρ ev) := by
    refine ⟨fun hc => hq.nonempty (List.map_eq_nil_iff.1 hc),
      List.Nodup.map_on (fun v hv w hw => hi v (hq.nodes v hv) w (hq.nodes w hw)) hq.nodup, fun w hw => ?_, evOk_ren hi hq.evidence, fun w hw => ?_⟩
    · obtain ⟨v, hv, rfl⟩ := List.mem_map.1 hw
      exact List.mem_map_of_mem (hq.nodes v hv)
    · obtain ⟨v, hv, rfl⟩ := List.mem_map.1 hw
      rw [keys_renObs]
      exact notMem_ren hi hq.evidence.nodes (hq.nodes v hv) (hq.disjoint v hv)
  obtain ⟨r', s1, _, s3, s4, _, s6⟩ := C36_exact_posterior hch' (VEObj.new m' : VEObj _ II) h2 (hB.relabel hi) (hn.relabel hB hi) hq'
    (e := some (renObs ρ ev)) rfl (by rw [hp0]; exact hp)
  refine ⟨m', r, r', h1, r1, s1, r4, s4, fun o ho hoT => ?_⟩
  have hfull := fullObs_ren hi hq.nodes r3 r4 s3 s4 ho hoT
  refine ⟨hfull, _, r6 o ho, ?_⟩
  rw [s6 _ hfull, hp0]
  congr 3
  rw [keys_renObs, ← List.map_append, BN.marg_relabel hB hi hkn]
  refine hB.marg_dep _ _ _ fun v hv => ?_
  rw [← renObs_append]
  refine asg_renObs fun x hx e => hi x ?_ v (hkn v hv) e
  rw [Dict.keys_append] at hx
  rcases List.mem_append.1 hx with hx | hx
  · exact hq.evidence.nodes x hx
  · exact hq.nodes x (hoT x hx)

/-- The renamed model of a causal model is one. -/
theorem causalOk_ren {m : SCM II LL} {B : BN V S K} (h : CausalOk m B) {mapping : List (V × V)}
    (hinj : B.InjOn (Factor.renameOne mapping)) (hend : ∀ v ∈ m.endogenous, v ∈ Dict.keys mapping ∧ v ∈ B.nodes) :
    ∃ m', m.renameVars mapping = .ok m' ∧ CausalOk m' (B.relabel (Factor.renameOne mapping)) := by
  obtain ⟨m', h1, h2, _, _, _, _, h7⟩ := h.rep.renameVarsDet h.valid hinj hend
  refine ⟨m', h1, h2, h.valid.relabel hinj, h.norm.relabel h.valid hinj, fun w hw a ha => ?_, fun w hw f hf => ?_⟩
  · rw [BN.inner_relabel hinj] at hw
    obtain ⟨v, hv, rfl⟩ := List.mem_map.1 hw
    rw [BN.relabel_table hinj (BN.mem_inner.1 hv).1]
    exact h.equations v hv _ ((BN.relabel_inStates hinj a).1 ha)
  · rw [BN.roots_relabel hinj] at hw
    obtain ⟨v, hv, rfl⟩ := List.mem_map.1 hw
    exact h7 v (BN.mem_roots.1 hv).1 (h.rootTables v hv) f hf

/-- **C105** renaming the variables of a causal model renames the answers of causal queries. -/
theorem C105_causal {ch ch' : Choices V} (hch : ch.Ok) (hch' : ch'.Ok) {m : SCM II LL} {B : BN V S K} (h : CausalOk m B)
    {mapping : List (V × V)} (hinj : ∀ v ∈ B.nodes, ∀ w ∈ B.nodes, newName mapping v = newName mapping w → v = w)
    (hend : ∀ v ∈ m.endogenous, v ∈ Dict.keys mapping ∧ v ∈ B.nodes) {T : List V} {d ev : Obs V S} (hT : T ≠ []) (hTn : T.Nodup)
    (hTv : ∀ t ∈ T, t ∈ B.nodes ∧ t ∉ Dict.keys ev ∧ t ∉ Dict.keys d) (hd : EvOk B d) (hev : EvOk B ev)
    (hp : B.doMarg d (Dict.keys ev) (asg ev) ≠ 0) :
    ∃ m' i i' r r', m.renameVars mapping = .ok m' ∧ new m = .ok i ∧ new m' = .ok i' ∧ causalQuery ch i T d (some ev) = .ok r ∧
      causalQuery ch' i' (T.map (newName mapping)) (inNewNames mapping d) (some (inNewNames mapping ev)) = .ok r' ∧
      SameRenamed mapping T r r' := by
  simp only [SameRenamed, inNewNames_eq]
  rw [newName_eq] at *
  let ρ := Factor.renameOne mapping
  have hi : B.InjOn ρ := hinj
  have hB := h.valid
  obtain ⟨m', h1, h2⟩ := causalOk_ren h hinj hend
  obtain ⟨i, r, r0, r1, _, r3, r4, _, r6⟩ := C42_interventional hch h hT hTn hTv hd hev (e := some ev) rfl hp
  have hTm : ∀ t ∈ T, t ∈ B.nodes := fun t ht => (hTv t ht).1
  have hkn : ∀ v ∈ T ++ Dict.keys ev, v ∈ B.nodes := fun v hv => by
    rcases List.mem_append.1 hv with hv | hv
    · exact hTm v hv
    · exact hev.nodes v hv
  have hp0 : (B.relabel ρ).doMarg (renObs ρ d) (Dict.keys (renObs ρ ev)) (asg (renObs ρ ev)) = B.doMarg d (Dict.keys ev) (asg ev) := by
    rw [keys_renObs, BN.doMarg_relabel hB hi hd.nodes hev.nodes]
    exact BN.doMarg_dep hB hd.nodes _ _ _ fun v hv => asg_renObs fun x hx e => hi x (hev.nodes x hx) v (hev.nodes v hv) e
  obtain ⟨i', r', s0, s1, _, s3, s4, _, s6⟩ := C42_interventional hch' h2 (T := T.map ρ) (d := renObs ρ d) (ev := renObs ρ ev)
    (fun hc => hT (List.map_eq_nil_iff.1 hc)) (List.Nodup.map_on (fun v hv w hw => hi v (hTm v hv) w (hTm w hw)) hTn)
    (fun w hw => by
      obtain ⟨v, hv, rfl⟩ := List.mem_map.1 hw
      rw [keys_renObs, keys_renObs]
      exact ⟨List.mem_map_of_mem (hTm v hv), notMem_ren hi hev.nodes (hTm v hv) (hTv v hv).2.1, notMem_ren hi hd.nodes (hTm v hv) (hTv v hv).2.2⟩)
    (evOk_ren hi hd) (evOk_ren hi hev) (e := some (renObs ρ ev)) rfl (by rw [hp0]; exact hp)
  refine ⟨m', i, i', r, r', h1, r0, s0, r1, s1, r4, s4, fun o ho hoT => ?_⟩
  have hfull := fullObs_ren hi hTm r3 r4 s3 s4 ho hoT
  refine ⟨hfull, _, r6 o ho, ?_⟩
  rw [s6 _ hfull, hp0]
  congr 3
  rw [keys_renObs, ← List.map_append, BN.doMarg_relabel hB hi hd.nodes hkn]
  refine BN.doMarg_dep hB hd.nodes _ _ _ fun v hv => ?_
  rw [← renObs_append]
  refine asg_renObs fun x hx e => hi x ?_ v (hkn v hv) e
  rw [Dict.keys_append] at hx
  rcases List.mem_append.1 hx with hx | hx
  · exact hev.nodes x hx
  · exact hTm x (hoT x hx)

theorem get?_targets {sfx : V → Nat → V} {tg : List (V × Nat)} (hinj : ∀ p ∈ tg, ∀ q ∈ tg, sfx p.1 p.2 = sfx q.1 q.2 → p = q) (s : V × Nat → S)
    {q : V × Nat} (hq : q ∈ tg) : Dict.get? (tg.map fun q => (sfx q.1 q.2, s q)) (sfx q.1 q.2) = some (s q) := by
  induction tg with
  | nil => cases hq
  | cons p tg ih =>
    rw [List.map_cons, Dict.get?]
    by_cases e : sfx p.1 p.2 = sfx q.1 q.2
    · rw [if_pos e, hinj p List.mem_cons_self q hq e]
    · rw [if_neg e]
      refine ih (fun p hp q hq => hinj p (List.mem_cons_of_mem _ hp) q (List.mem_cons_of_mem _ hq)) ?_
      rcases List.mem_cons.1 hq with rfl | hq
      · exact absurd rfl e
      · exact hq

/-- **C105** (partial) renaming the variables of a causal model renames the answers of counterfactual queries; `s` gives a state to
each target.

Full statement: for every query that the model answers and every injective renaming.  It does not hold: the names of the copies
have to be new after the renaming too (`C105_collision`). -/
theorem C105_counterfactual_partial [IsStrictOrderedRing K] {ch ch' : Choices V} (hch : ch.Ok) (hch' : ch'.Ok) {m : SCM II LL} {B : BN V S K} (h : CausalOk m B)
    {mapping : List (V × V)} (hinj : ∀ v ∈ B.nodes, ∀ w ∈ B.nodes, newName mapping v = newName mapping w → v = w)
    (hend : ∀ v ∈ m.endogenous, v ∈ Dict.keys mapping ∧ v ∈ B.nodes) {sfx : V → Nat → V} {dos : List (Obs V S)} {tg : List (V × Nat)}
    (hq : CfOk B sfx dos tg)
    (hfresh : ∀ v ∈ B.inner, ∀ i, 1 ≤ i → i ≤ dos.length → ∀ w ∈ B.nodes, sfx (newName mapping v) i ≠ newName mapping w)
    (hsfx : ∀ v ∈ B.inner, ∀ w ∈ B.inner, ∀ i j, 1 ≤ i → i ≤ dos.length → 1 ≤ j → j ≤ dos.length →
      sfx (newName mapping v) i = sfx (newName mapping w) j → v = w ∧ i = j)
    {ev : Obs V S} (hev : EvOk B ev) (hp : B.cfProb B.roots B.inner [([], ev)] ≠ 0) :
    ∃ m' i i' r r', m.renameVars mapping = .ok m' ∧ new m = .ok i ∧ new m' = .ok i' ∧
      counterfactualQuery sfx ch i (tg.map Prod.fst) dos (some ev) (some (tg.map Prod.snd)) = .ok r ∧
      counterfactualQuery sfx ch' i' (tg.map fun q => newName mapping q.1) (dos.map (inNewNames mapping)) (some (inNewNames mapping ev))
        (some (tg.map Prod.snd)) = .ok r' ∧
      ∀ s : V × Nat → S, (∀ q ∈ tg, s q ∈ B.states q.1) → ∃ p, r.getValue (tg.map fun q => (sfx q.1 q.2, s q)) = .ok (.fin p) ∧
        r'.getValue (tg.map fun q => (sfx (newName mapping q.1) q.2, s q)) = .ok (.fin p) := by
  have hin : (inNewNames mapping : Obs V S → Obs V S) = renObs (Factor.renameOne mapping) := funext fun o => inNewNames_eq mapping o
  rw [hin]
  rw [newName_eq] at *
  let ρ := Factor.renameOne mapping
  have hi : B.InjOn ρ := hinj
  have hB := h.valid
  obtain ⟨m', h1, h2⟩ := causalOk_ren h hinj hend
  let tg' : List (V × Nat) := tg.map fun q => (ρ q.1, q.2)
  have hin' : ∀ v ∈ B.inner, v ∈ B.nodes := fun v hv => (BN.mem_inner.1 hv).1
  have hkd : ∀ d ∈ dos, ∀ v ∈ Dict.keys d, v ∈ B.nodes := fun d hd v hv => hin' v (hq.doInner d hd v hv)
  have hevd : ∀ d ∈ dos, EvOk B d := fun d hd => ⟨hq.doNodup d hd, hkd d hd, hq.doStates d hd⟩
  have hlen : (dos.map (renObs ρ)).length = dos.length := List.length_map _
  have hq' : CfOk (B.relabel ρ) sfx (dos.map (renObs ρ)) tg' := by
    refine { doNodup := ?_, doInner := ?_, doStates := ?_, used := ?_, fresh := ?_, inj := ?_, nonempty := ?_, nodup := ?_, target := ?_ }
    · intro d' hd'
      obtain ⟨d, hd, rfl⟩ := List.mem_map.1 hd'
      exact (evOk_ren hi (hevd d hd)).nodup
    · intro d' hd' w hw
      obtain ⟨d, hd, rfl⟩ := List.mem_map.1 hd'
      rw [keys_renObs] at hw
      obtain ⟨v, hv, rfl⟩ := List.mem_map.1 hw
      rw [BN.inner_relabel hi]
      exact List.mem_map_of_mem (hq.doInner d hd v hv)
    · intro d' hd'
      obtain ⟨d, hd, rfl⟩ := List.mem_map.1 hd'
      exact (evOk_ren hi (hevd d hd)).states
    · intro d' hd' w hw
      obtain ⟨d, hd, rfl⟩ := List.mem_map.1 hd'
      rw [keys_renObs] at hw
      obtain ⟨v, hv, rfl⟩ := List.mem_map.1 hw
      obtain ⟨c, c1, c2, c3⟩ := hq.used d hd v hv
      refine ⟨ρ c, List.mem_map_of_mem c1, ?_, ?_⟩
      · rw [BN.relabel_parents hi c1]; exact List.mem_map_of_mem c2
      · rw [keys_renObs]; exact notMem_ren hi (hkd d hd) c1 c3
    · intro x hx i i1 i2 hc
      rw [BN.inner_relabel hi] at hx
      obtain ⟨v, hv, rfl⟩ := List.mem_map.1 hx
      obtain ⟨w, hw, e⟩ := List.mem_map.1 hc
      exact hfresh v hv i i1 (hlen ▸ i2) w hw e.symm
    · intro x hx y hy i j i1 i2 j1 j2 e
      rw [BN.inner_relabel hi] at hx hy
      obtain ⟨v, hv, rfl⟩ := List.mem_map.1 hx
      obtain ⟨w, hw, rfl⟩ := List.mem_map.1 hy
      obtain ⟨e1, e2⟩ := hsfx v hv w hw i j i1 (hlen ▸ i2) j1 (hlen ▸ j2) e
      exact ⟨by rw [e1], e2⟩
    · exact fun hc => hq.nonempty (List.map_eq_nil_iff.1 hc)
    · refine List.Nodup.map_on (fun p hp q hqt e => ?_) hq.nodup
      injection e with e1 e2
      exact Prod.ext (hi _ (hin' _ (hq.target p hp).1) _ (hin' _ (hq.target q hqt).1) e1) e2
    · intro q' hq'
      obtain ⟨q, hqt, rfl⟩ := List.mem_map.1 hq'
      obtain ⟨t1, t2, t3, t4⟩ := hq.target q hqt
      rw [BN.inner_relabel hi, hlen]
      refine ⟨List.mem_map_of_mem t1, t2, t3, fun d' hd' => ?_⟩
      rw [List.getElem?_map] at hd'
      obtain ⟨d, hd, rfl⟩ := Option.map_eq_some_iff.1 hd'
      rw [keys_renObs]
      exact notMem_ren hi (hkd d (List.mem_of_getElem? hd)) (hin' _ t1) (t4 d hd)
  have hnil : ∀ v ∈ Dict.keys ([] : Obs V S), v ∈ B.nodes := fun v hv => by cases hv
  have hp0 : (B.relabel ρ).cfProb (B.relabel ρ).roots (B.relabel ρ).inner [([], renObs ρ ev)] = B.cfProb B.roots B.inner [([], ev)] :=
    BN.cfProb_relabel hB hi (ws := [([], ev)]) fun w hw => by rw [List.mem_singleton.1 hw]; exact ⟨hnil, hev.nodes⟩
  obtain ⟨i, r, r0, r1, r2, r3, _, r5, r6⟩ := C43_counterfactual_partial hch h hq hev (e := some ev) rfl hp
  obtain ⟨i', r', s0, s1, s2, s3, _, s5, s6⟩ := C43_counterfactual_partial hch' h2 hq' (evOk_ren hi hev) (e := some (renObs ρ ev)) rfl
    (by rw [hp0]; exact hp)
  have ht1 : tg'.map Prod.fst = tg.map fun q => ρ q.1 := by simp [tg', Function.comp_def]
  have ht2 : tg'.map Prod.snd = tg.map Prod.snd := by simp [tg', Function.comp_def]
  rw [ht1, ht2] at s1
  refine ⟨m', i, i', r, r', h1, r0, s0, r1, s1, fun s hs => ?_⟩
  have j1 : ∀ p ∈ tg, ∀ q ∈ tg, sfx p.1 p.2 = sfx q.1 q.2 → p = q := fun p hp q hqt e => by
    obtain ⟨a1, a2, a3, _⟩ := hq.target p hp
    obtain ⟨b1, b2, b3, _⟩ := hq.target q hqt
    obtain ⟨e1, e2⟩ := hq.inj _ a1 _ b1 _ _ a2 a3 b2 b3 e
    exact Prod.ext e1 e2
  have j2 : ∀ p ∈ tg, ∀ q ∈ tg, sfx (ρ p.1) p.2 = sfx (ρ q.1) q.2 → p = q := fun p hp q hqt e => by
    obtain ⟨a1, a2, a3, _⟩ := hq.target p hp
    obtain ⟨b1, b2, b3, _⟩ := hq.target q hqt
    obtain ⟨e1, e2⟩ := hsfx _ a1 _ b1 _ _ a2 a3 b2 b3 e
    exact Prod.ext e1 e2
  have g1 : ∀ q ∈ tg, Dict.get? (tg.map fun q => (sfx q.1 q.2, s q)) (sfx q.1 q.2) = some (s q) := fun q hqt => get?_targets j1 s hqt
  have g2 : ∀ q ∈ tg, Dict.get? (tg.map fun q => (sfx (ρ q.1) q.2, s q)) (sfx (ρ q.1) q.2) = some (s q) :=
    fun q hqt => get?_targets (sfx := fun v i => sfx (ρ v) i) j2 s hqt
  have f1 : FullObs r.dom (tg.map fun q => (sfx q.1 q.2, s q)) := by
    intro p hp
    obtain ⟨q, hqt, e1, e2⟩ := r5 p hp
    exact ⟨s q, by rw [e2]; exact hs q hqt, by rw [e1]; exact g1 q hqt⟩
  have f2 : FullObs r'.dom (tg.map fun q => (sfx (ρ q.1) q.2, s q)) := by
    intro p hp
    obtain ⟨q', hqt', e1, e2⟩ := s5 p hp
    obtain ⟨q, hqt, rfl⟩ := List.mem_map.1 hqt'
    refine ⟨s q, ?_, by rw [e1]; exact g2 q hqt⟩
    rw [e2, BN.relabel_states hi (hin' _ (hq.target q hqt).1)]
    exact hs q hqt
  refine ⟨_, r6 _ f1, ?_⟩
  rw [s6 _ f2, hp0]
  congr 3
  have htO : ∀ i, targetObs sfx tg (tg.map fun q => (sfx q.1 q.2, s q)) i = (tg.filter fun q => q.2 = i).map fun q => (q.1, s q) := by
    intro i
    rw [targetObs]
    refine List.map_congr_left fun q hqf => ?_
    rw [asg, over_of_get? (g1 q (List.mem_filter.1 hqf).1)]
  have htO' : ∀ i, targetObs sfx tg' (tg.map fun q => (sfx (ρ q.1) q.2, s q)) i = renObs ρ ((tg.filter fun q => q.2 = i).map fun q => (q.1, s q)) := by
    intro i
    rw [targetObs, renObs, List.map_map, List.filter_map, List.map_map]
    refine List.map_congr_left fun q hqf => ?_
    have hqt : q ∈ tg := (List.mem_filter.1 hqf).1
    simp only [Function.comp]
    rw [asg, over_of_get? (g2 q hqt)]
  have hws : ((([], renObs ρ ev) : Obs V S × Obs V S) :: (dos.map (renObs ρ)).zipIdx.map fun p =>
      (p.1, targetObs sfx tg' (tg.map fun q => (sfx (ρ q.1) q.2, s q)) (p.2 + 1))) =
      (([], ev) :: dos.zipIdx.map fun p => (p.1, targetObs sfx tg (tg.map fun q => (sfx q.1 q.2, s q)) (p.2 + 1))).map (BN.renWorld ρ) := by
    rw [List.map_cons, List.map_map, List.zipIdx_map, List.map_map]
    congr 1
    refine List.map_congr_left fun p _ => ?_
    simp only [Function.comp, BN.renWorld, htO, htO']
    rfl
  have := BN.cfProb_relabel hB hi (ws := ([], ev) :: dos.zipIdx.map fun p => (p.1, targetObs sfx tg (tg.map fun q => (sfx q.1 q.2, s q)) (p.2 + 1)))
    (by
      intro w hw
      rcases List.mem_cons.1 hw with rfl | hw
      · exact ⟨hnil, hev.nodes⟩
      · obtain ⟨p, hp, rfl⟩ := List.mem_map.1 hw
        refine ⟨hkd p.1 (mem_zipIdx hp).2.2, fun v hv => ?_⟩
        rw [htO] at hv
        obtain ⟨x, hx, rfl⟩ := List.mem_map.1 hv
        obtain ⟨q, hqf, rfl⟩ := List.mem_map.1 hx
        exact hin' _ (hq.target q (List.mem_filter.1 hqf).1).1)
  rw [← this, ← hws]

/-! ### Example -/

abbrev sA : PyStr := ['A']
abbrev sC : PyStr := ['C']
abbrev sZ1 : PyStr := ['Z', '_', '1']

/-- `X` becomes `Y` and `Y` becomes `X`, `Z` becomes `A` and `U` becomes `C`; `W` is not mentioned. -/
def exRen : List (PyStr × PyStr) := [(sX, sY), (sY, sX), (sZ, sA), (sU, sC)]

/-- A counterfactual query to the renamed example -/
def exCfRen (vt : VType) (mapping : List (PyStr × PyStr)) (target : List PyStr) (dos : List (Obs PyStr Char)) (ev : Option (Obs PyStr Char))
    (subs : Option (List Nat)) (obs : Obs PyStr Char) : Py (Fl ℚ) := do
  let m ← exScm vt none false
  let m1 ← m.renameVars mapping
  let m' ← new m1
  let r ← counterfactualQuery pySfx chStr m' target dos ev subs
  r.getValue obs

/-- A causal query to the renamed example -/
def exDoRen (vt : VType) (mapping : List (PyStr × PyStr)) (target : List PyStr) (d : Obs PyStr Char) (ev : Option (Obs PyStr Char))
    (obs : Obs PyStr Char) : Py (Fl ℚ) := do
  let m ← exScm vt none false
  let m1 ← m.renameVars mapping
  let m' ← new m1
  let r ← causalQuery chStr m' target d ev
  r.getValue obs

/-- **C105** on the example (the queries of `C42_example` and `C43_example_value`, in the new names): the renaming is injective,
mentions the endogenous variables and exchanges two of them, the names of the copies are new after it, and the values are the
ones of the two examples. -/
theorem C105_example (vt : VType) : ∃ (m : SCM (IS vt PyStr) (LS vt PyStr)) (b : DagModel (Factor (IS vt PyStr)) PyStr Char),
    exScm vt none false = .ok m ∧ CausalOk m (exB vt b) ∧
    (∀ v ∈ (exB vt b).nodes, ∀ w ∈ (exB vt b).nodes, newName exRen v = newName exRen w → v = w) ∧
    (∀ v ∈ m.endogenous, v ∈ Dict.keys exRen ∧ v ∈ (exB vt b).nodes) ∧
    (∀ v ∈ (exB vt b).inner, ∀ i, 1 ≤ i → i ≤ 2 → ∀ w ∈ (exB vt b).nodes, pySfx (newName exRen v) i ≠ newName exRen w) ∧
    exDoRen vt exRen [sA] [(sY, '1')] (some [(sX, '1')]) [(sA, '1')] = .ok (q (2/3)) ∧
    exCfRen vt exRen [sA, sX] [[(sX, '1')], [(sY, '0')]] (some [(sA, '1')]) (some [1, 2]) [(pySfx sA 1, '1'), (pySfx sX 2, '0')] =
      .ok (q (1/16)) := by
  obtain ⟨m, b, h1, hb, h3, h4, _⟩ := ex_causal vt
  obtain ⟨f1, f2, _⟩ := exB_facts hb
  have he : (match exScm vt none false with
      | .ok m => decide (m.endogenous = [sX, sY, sZ])
      | .error _ => false) = true := by cases vt <;> decide +kernel
  rw [h1] at he
  simp only [decide_eq_true_eq] at he
  refine ⟨m, b, h1, h3, by rw [f1]; decide +kernel, by rw [f1, he]; decide +kernel, ?_, by cases vt <;> decide +kernel, by cases vt <;> decide +kernel⟩
  rw [f1, f2]
  have : ∀ v ∈ [sX, sY, sZ], ∀ i ∈ [1, 2], ∀ w ∈ [sU, sW, sX, sY, sZ], pySfx (newName exRen v) i ≠ newName exRen w := by decide +kernel
  intro v hv i h1 h2
  exact this v hv i (by simp; omega)

/-- **C105** does not hold for every injective renaming: when `X` is renamed to `Z_1`, the query of `Z` under `Y = 1` that the
model answers raises a ValueError. -/
theorem C105_collision (vt : VType) :
    exCfRen vt [(sX, sX), (sY, sY), (sZ, sZ)] [sZ] [[(sY, '1')]] none none [(pySfx sZ 1, '1')] = .ok (q (2/3)) ∧
    exCfRen vt [(sX, sZ1), (sY, sY), (sZ, sZ)] [sZ] [[(sY, '1')]] none none [(pySfx sZ 1, '1')] = .error .valueError := by
  cases vt <;> decide +kernel

end Props
end Verif
