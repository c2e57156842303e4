import Verif.Net.CfProb
import Verif.Props.Models
import Verif.Py.Names

/-!
# Properties of causal and counterfactual queries (C35, C42 – C46)

`CausalOk m B` says what a structural causal model is: the object `m` represents the network `B`, whose nodes with
parents have zero-one tables and whose roots have multinomial factors.  `new m` is the constructor of
`CausalVariableElimination`.  The answers are compared with `BN.doMarg` (truncated factorisation) and `BN.cfProb` (sum
over the exogenous states of their probability, restricted to those for which the solutions of the equations in each of
the worlds are as stated), which do not refer to factors or to fused models.
-/

set_option linter.unusedSectionVars false
set_option linter.unusedSimpArgs false

namespace Verif
namespace Props
open Causal

variable {V S K : Type} [DecidableEq V] [DecidableEq S] [Inhabited S] [Field K] [LinearOrder K] {vt : VType}

local notation "II" => (storeOf vt : StoreImpl V S (Fl K))
local notation "LL" => (labelStoreOf vt : LabelStore V S)

/-! ### C42 -/

/-- **C42** for every structural causal model, intervention and evidence of non-zero probability under the intervention,
the answer is the conditional distribution computed from the truncated factorisation. -/
theorem C42_interventional {ch : Choices V} (hch : ch.Ok) {m : SCM II LL} {B : BN V S K} (h : CausalOk m B) {T : List V}
    {d ev : Obs V S} (hT : T ≠ []) (hTn : T.Nodup) (hTv : ∀ t ∈ T, t ∈ B.nodes ∧ t ∉ Dict.keys ev ∧ t ∉ Dict.keys d)
    (hd : EvOk B d) (hev : EvOk B ev) {e : Option (Obs V S)} (hee : e.getD [] = ev)
    (hp : B.doMarg d (Dict.keys ev) (asg ev) ≠ 0) :
    ∃ m' r, new m = .ok m' ∧ causalQuery ch m' T d e = .ok r ∧ r.WF ∧ (∀ p ∈ r.dom, p.2 = B.states p.1) ∧
      (∀ v, v ∈ r.vars ↔ v ∈ T) ∧ (∀ v, v ∈ r.leftVars ↔ v ∈ T) ∧
      ∀ obs, FullObs r.dom obs → r.getValue obs = .ok (.fin
        (B.doMarg d (T ++ Dict.keys ev) (asg (ev ++ obs)) / B.doMarg d (Dict.keys ev) (asg ev))) := by
  obtain ⟨m', n1, n2, n3, n4, _, _⟩ := new_ok h
  have hdo : B.DoOk d := fun v s hs _ => hd.states v s hs
  obtain ⟨im, i1, i2, _, _, _, i6⟩ := n2.intervene h.valid hdo
  have hrep := i2.represents (i6 n3)
  -- no conflict
  have hag : ∀ v ∈ Dict.keys ev, ∀ s, Dict.get? d v = some s → (asg ev : V → S) v = s := by
    intro v hv s hs
    by_contra hne
    exact hp (BN.doMarg_conflict h.valid hv hs hne)
  have hE : EvOk (B.doBN d) (Dict.merge ev d) := by
    refine ⟨Dict.nodup_keys_merge hev.nodup hd.nodup, fun v hv => ?_, fun v s hs => ?_⟩
    · rcases SCM.mem_keys_merge.1 hv with hv | hv
      · exact hev.nodes v hv
      · exact hd.nodes v hv
    · rw [Dict.get?_merge] at hs
      cases hg : Dict.get? d v with
      | some t => rw [hg] at hs; exact hd.states v s (hg.trans hs)
      | none => rw [hg] at hs; exact hev.states v s hs
  have hasg : ∀ o : Obs V S, (asg (Dict.merge ev d ++ o) : V → S) = over d (asg (ev ++ o)) := by
    intro o
    funext v
    rw [asg_append, asg_append, over, over, over, Dict.get?_merge]
    cases Dict.get? d v <;> rfl
  have hden : (B.doBN d).marg (Dict.keys (Dict.merge ev d)) (asg (Dict.merge ev d)) = B.doMarg d (Dict.keys ev) (asg ev) := by
    have := hasg []
    rw [List.append_nil, List.append_nil] at this
    rw [BN.doMarg_eq hd.nodes, this]
    exact BN.doMarg_over h.valid hdo hd.nodes (fun v _ => SCM.mem_keys_merge) hag
  have hq : GoodQuery (B.doBN d) T (Dict.merge ev d) := ⟨hT, hTn, fun t ht => (hTv t ht).1, hE, fun t ht hc =>
    (SCM.mem_keys_merge.1 hc).elim (hTv t ht).2.1 (hTv t ht).2.2⟩
  obtain ⟨r, q1, q2, q3, q4, q5, q6⟩ := C36_exact_posterior hch (VEObj.new im.base : VEObj _ II) hrep (h.valid.doBN d)
    (BN.Normalised.doBN h.valid h.norm hdo) hq (e := some (Dict.merge ev d)) rfl (by rw [hden]; exact hp)
  refine ⟨m', r, n1, ?_, q2, q3, q4, q5, fun obs ho => ?_⟩
  · have hk : ∀ v ∈ Dict.keys d, v ∈ m'.base.graph.nodes := fun v hv => by rw [n2.nodes]; exact hd.nodes v hv
    rw [causalQuery, if_neg (not_not.2 hk), hee]
    simp only [i1, py_ok_bind]
    exact q1
  · rw [q6 obs ho, hden]
    congr 3
    rw [BN.doMarg_eq hd.nodes, hasg]
    refine BN.doMarg_over h.valid hdo hd.nodes (fun v _ => ?_) fun v hv s hs => ?_
    · simp only [List.mem_append, SCM.mem_keys_merge]; tauto
    · rcases List.mem_append.1 hv with hv | hv
      · exact absurd (Dict.mem_keys_of_mem (Dict.mem_of_get? hs)) (hTv v hv).2.2
      · rw [← hag v hv s hs, asg_append]
        obtain ⟨t, ht⟩ := Option.isSome_iff_exists.1 (Dict.get?_isSome.2 hv)
        rw [over_of_get? ht, asg, over_of_get? ht]

/-- Intervening on a name that is not in the model is refused. -/
theorem C42_unknown {ch : Choices V} {m : SCM II LL} {T : List V} {d : Obs V S} {e : Option (Obs V S)}
    (h : ∃ v ∈ Dict.keys d, v ∉ m.base.graph.nodes) : causalQuery ch m T d e = .error .nodeNotFound := by
  obtain ⟨v, hv, hn⟩ := h
  rw [causalQuery, if_pos fun hc => hn (hc v hv)]
  rfl

/-- Evidence that contradicts the intervention has probability zero, but the code does not notice: the imposed states
replace the observed ones, so the answer is the one without that evidence. -/
theorem C42_do_wins {ch : Choices V} {m : SCM II LL} {T : List V} {d ev : Obs V S} (hd : (Dict.keys d).Nodup) :
    causalQuery ch m T d (some ev) = causalQuery ch m T d (some (Dict.merge ev d)) := by
  have : Dict.merge (Dict.merge ev d) d = Dict.merge ev d := by
    have h1 : (Dict.merge ev d).map (fun p => (p.1, (Dict.get? d p.1).getD p.2)) = Dict.merge ev d := by
      refine (List.map_congr_left fun p hp => ?_).trans (List.map_id _)
      rw [Dict.merge, List.mem_append] at hp
      rcases hp with hp | hp
      · obtain ⟨q, _, rfl⟩ := List.mem_map.1 hp
        cases Dict.get? d q.1 <;> rfl
      · rw [Dict.get?_of_mem hd (List.mem_filter.1 hp).1]; rfl
    have h2 : d.filter (fun p => p.1 ∉ Dict.keys (Dict.merge ev d)) = [] := by
      rw [List.filter_eq_nil_iff]
      intro p hp
      simpa using SCM.mem_keys_merge.2 (.inr (Dict.mem_keys_of_mem hp))
    conv_lhs => rw [Dict.merge]
    rw [h1, h2, List.append_nil]
  rw [causalQuery, causalQuery]
  simp only [Option.getD_some, this]

/-! ### C35 -/

section worlds
variable [IsStrictOrderedRing K] {sfx : V → Nat → V} {dos : List (Obs V S)} {tg : List (V × Nat)}

/-- **C35** the model built for a counterfactual query represents a network with one copy of the exogenous tables and,
for the factual world and for each hypothetical one, a copy of the endogenous tables; its joint distribution is the product
of them all.  In the `i`-th world a variable is read under its name there (`copyName`). -/
theorem C35_fused_joint {setOrd : List V → List V} (hord : ∀ l, (setOrd l).Nodup ∧ ∀ v, v ∈ setOrd l ↔ v ∈ l) {m : SCM II LL}
    {B : BN V S K} (h : CausalOk m B) (hw : WorldsOk B sfx dos) :
    ∃ m' m'' B', new m = .ok m' ∧ cfModel sfx setOrd m' dos = .ok m'' ∧ m''.Rep B' ∧ B'.Valid ∧ B'.Normalised ∧
      (∀ w, w ∈ m''.base.graph.nodes ↔ w ∈ B.nodes ∨ ∃ p ∈ dos.zipIdx, ∃ v ∈ B.inner, w = sfx v (p.2 + 1)) ∧
      m''.endogenous = B.inner ++ dos.zipIdx.flatMap (fun p => B.inner.map fun v => sfx v (p.2 + 1)) ∧
      ∀ a, B'.joint a = (B.roots.map fun u => B.table u a).prod * (B.inner.map fun v => B.table v a).prod *
        (dos.zipIdx.map fun p => (B.inner.map fun v => (B.doBN p.1).table v fun w => a (copyName sfx B.inner (p.2 + 1) w)).prod).prod := by
  obtain ⟨m', n1, n2, n3, n4, n5, n6⟩ := new_ok h
  have ht := hw.twinOk h.valid h.norm h.equations
  have ht' : B.TwinOk m'.exogenous m'.endogenous sfx dos := by rw [n5, n6]; exact ht
  obtain ⟨m'', nodes, c1, c2, c3, c4, c5, _, _⟩ := cfModel_ok hord n2 ht' (by rw [n5]; exact hw.used')
  rw [n5] at c2 c4 c5
  have hg := ht.glueOk c3 c4
  refine ⟨m', m'', _, n1, c1, c2, hg.glueValid, ht.normalised hg, fun w => ?_, c5, ht.joint c3 c4⟩
  rw [c2.nodes]; exact c4 w

/-- **C35** fusing any models that share the roots `on` and nothing else: one copy of the shared tables, those of the
first model, and one copy of each of the other tables of each model. -/
theorem C35_fusion {setOrd : List V → List V} (hord : ∀ l, (setOrd l).Nodup ∧ ∀ v, v ∈ setOrd l ↔ v ∈ l) {m0 : SCM II LL}
    {ms : List (SCM II LL)} {B0 : BN V S K} {Bs : List (BN V S K)} (h : List.Forall₂ SCM.Rep (m0 :: ms) (B0 :: Bs)) {on : List V}
    (hv : ∀ B ∈ B0 :: Bs, B.Valid) (hon : on.Nodup)
    (hshared : ∀ B ∈ B0 :: Bs, ∀ u ∈ on, u ∈ B.nodes ∧ B.parents u = [] ∧ B.states u = B0.states u)
    (hdis : (B0 :: Bs).Pairwise fun B B' => ∀ w, w ∈ B.nodes → w ∈ B'.nodes → w ∈ on)
    (hiso : ∀ B ∈ Bs, ∀ v ∈ B.nodes, v ∈ on ∨ B.parents v ≠ [] ∨ ∃ c ∈ B.nodes, v ∈ B.parents c) {endo : List V}
    (hne : endo ≠ []) (heq : ∀ v ∈ endo, v ∉ on ∧ ∀ B ∈ B0 :: Bs, v ∈ B.nodes → ∀ a, B.InStates a → B.table v a = 0 ∨ B.table v a = 1) :
    ∃ m' B', SCM.fusionRoots setOrd (m0 :: ms) on endo = .ok m' ∧ m'.Rep B' ∧ m'.endogenous = endo ∧
      (∀ w, w ∈ m'.base.graph.nodes ↔ ∃ B ∈ B0 :: Bs, w ∈ B.nodes) ∧
      ∀ a, B'.joint a = (on.map fun u => B0.table u a).prod *
        ((B0 :: Bs).map fun B => ((B.nodes.filter (· ∉ on)).map fun v => B.table v a).prod).prod := by
  have hr0 : m0.Rep B0 := (List.forall₂_cons.1 h).1
  obtain ⟨w1, w2, w3⟩ := SCM.fusedGraph_spec ms hr0.wf
  have h12 := SCM.forall₂_mem (List.forall₂_cons.1 h).2
  have hmem : ∀ w, w ∈ (SCM.fusedGraph m0 ms).nodes ↔ ∃ B ∈ B0 :: Bs, w ∈ B.nodes := by
    intro w
    rw [w2, hr0.nodes]
    constructor
    · rintro (hw | ⟨m, hm, e, he, hw⟩)
      · exact ⟨B0, List.mem_cons_self, hw⟩
      · obtain ⟨B, hB, hr⟩ := h12.1 m hm
        refine ⟨B, List.mem_cons_of_mem _ hB, ?_⟩
        rw [← hr.nodes]
        rcases hw with rfl | rfl
        · exact (hr.wf.ends e he).1
        · exact (hr.wf.ends e he).2
    · rintro ⟨B, hB, hw⟩
      rcases List.mem_cons.1 hB with rfl | hB'
      · exact .inl hw
      · obtain ⟨m, hm, hr⟩ := h12.2 B hB'
        rcases hiso B hB' w hw with hw' | hw' | ⟨c, hc, hw'⟩
        · exact .inl (hshared B0 List.mem_cons_self w hw').1
        · obtain ⟨y, hy⟩ := List.exists_mem_of_ne_nil _ hw'
          exact .inr ⟨m, hm, _, (hr.parents w hw y).1 hy, .inr rfl⟩
        · exact .inr ⟨m, hm, _, (hr.parents c hc w).1 hw', .inl rfl⟩
  have hg : BN.GlueOk B0 Bs on (SCM.fusedGraph m0 ms).nodes := ⟨hv, hon, hshared, hdis, w1.nodes, hmem⟩
  obtain ⟨m', f1, f2, f3, f4, _, _⟩ := SCM.fusion_ok hord h hg (endo := endo) (fun hc => absurd hc hne) (fun v hv' hvn a ha => by
    obtain ⟨B, hB, hvB⟩ := (hmem v).1 hvn
    rw [hg.table_eq hB hvB (heq v hv').1]
    exact (heq v hv').2 B hB hvB a (hg.inStates hB ha))
  exact ⟨m', _, f1, f2, f4, fun w => by rw [f3]; exact hmem w, hg.joint⟩

/-! ### C43 -/

/-- **C43** (partial) for every structural causal model, every list of hypothetical worlds, targets in them and evidence of non-zero
probability: the value at the states `obs` of the targets is the probability that the evidence holds in the factual world and
each target has its state in its world, divided by the probability of the evidence.

Full statement: the same for all interventions and targets.  It does not hold: `CfOk` asks that interventions and targets
be endogenous, that each intervened variable have a child that is not intervened in the same world, and that the names of
the copies be new.  Without the first two the query fails (`C44_…`), without the last it may give a wrong answer
(`C43_name_collision`). -/
theorem C43_counterfactual_partial {ch : Choices V} (hch : ch.Ok) {m : SCM II LL} {B : BN V S K} (h : CausalOk m B) (hq : CfOk B sfx dos tg)
    {ev : Obs V S} (hev : EvOk B ev) {e : Option (Obs V S)} (hee : e.getD [] = ev)
    (hp : B.cfProb B.roots B.inner [([], ev)] ≠ 0) :
    ∃ m' r, new m = .ok m' ∧ counterfactualQuery sfx ch m' (tg.map Prod.fst) dos e (some (tg.map Prod.snd)) = .ok r ∧ r.WF ∧
      (∀ v, v ∈ r.vars ↔ ∃ q ∈ tg, v = sfx q.1 q.2) ∧ (∀ v, v ∈ r.leftVars ↔ ∃ q ∈ tg, v = sfx q.1 q.2) ∧
      (∀ p ∈ r.dom, ∃ q ∈ tg, p.1 = sfx q.1 q.2 ∧ p.2 = B.states q.1) ∧
      ∀ obs, FullObs r.dom obs → r.getValue obs = .ok (.fin
        (B.cfProb B.roots B.inner (([], ev) :: dos.zipIdx.map fun p => (p.1, targetObs sfx tg obs (p.2 + 1))) /
          B.cfProb B.roots B.inner [([], ev)])) := by
  obtain ⟨m', n1, n2, n3, _, n5, n6⟩ := new_ok h
  have hT : cfTarget sfx (tg.map Prod.fst) (some (tg.map Prod.snd)) = tg.map fun q => sfx q.1 q.2 := by
    have hz : (tg.map Prod.fst).zip (tg.map Prod.snd) = tg := by rw [← List.unzip_fst, ← List.unzip_snd]; exact List.zip_unzip _
    cases tg with
    | nil => exact absurd rfl hq.nonempty
    | cons q tg => exact congrArg (List.map fun q : V × Nat => sfx q.1 q.2) hz
  obtain ⟨r, hr⟩ := cf_core hch n2 n3 n5 n6 h.valid h.norm h.equations hq hev hp hee hT
  exact ⟨m', r, n1, hr⟩

/-- **C43** (partial) the usual call: one hypothetical world and no numbers of worlds. -/
theorem C43_one_world_partial {ch : Choices V} (hch : ch.Ok) {m : SCM II LL} {B : BN V S K} (h : CausalOk m B) {d : Obs V S} {T : List V}
    (hq : CfOk B sfx [d] (T.map fun t => (t, 1))) {ev : Obs V S} (hev : EvOk B ev) {e : Option (Obs V S)} (hee : e.getD [] = ev)
    (hp : B.cfProb B.roots B.inner [([], ev)] ≠ 0) :
    ∃ m' r, new m = .ok m' ∧ counterfactualQuery sfx ch m' T [d] e none = .ok r ∧ r.WF ∧
      (∀ v, v ∈ r.vars ↔ ∃ t ∈ T, v = sfx t 1) ∧ (∀ v, v ∈ r.leftVars ↔ ∃ t ∈ T, v = sfx t 1) ∧
      (∀ p ∈ r.dom, ∃ t ∈ T, p.1 = sfx t 1 ∧ p.2 = B.states t) ∧
      ∀ obs, FullObs r.dom obs → r.getValue obs = .ok (.fin
        (B.cfProb B.roots B.inner [([], ev), (d, T.map fun t => (t, asg obs (sfx t 1)))] /
          B.cfProb B.roots B.inner [([], ev)])) := by
  obtain ⟨m', n1, n2, n3, _, n5, n6⟩ := new_ok h
  have hT : cfTarget sfx T none = (T.map fun t => (t, 1)).map fun q => sfx q.1 q.2 := by
    rw [cfTarget]
    have : ∀ l : List V, l.zip (List.replicate l.length 1) = l.map fun t => (t, 1) := by
      intro l
      induction l with
      | nil => rfl
      | cons x l ih => simp [List.replicate_succ, ih]
    simp only [this]
  have hobs : ∀ obs : Obs V S, targetObs sfx (T.map fun t => (t, 1)) obs 1 = T.map fun t => (t, asg obs (sfx t 1)) := by
    intro obs
    rw [targetObs, List.filter_eq_self.2 (by simp), List.map_map]
    rfl
  obtain ⟨r, r1, r2, r3, r4, r5, r6⟩ := cf_core hch n2 n3 n5 n6 h.valid h.norm h.equations hq hev hp hee hT
  refine ⟨m', r, n1, r1, r2, fun v => ?_, fun v => ?_, fun p hp => ?_, fun obs ho => ?_⟩
  · rw [r3]; simp
  · rw [r4]; simp
  · simpa using r5 p hp
  · rw [r6 obs ho]
    show Except.ok (Fl.fin (B.cfProb B.roots B.inner [([], ev), (d, targetObs sfx (T.map fun t => (t, 1)) obs 1)] / _)) = _
    rw [hobs]

/-! ### C45 -/

/-- **C45** if the evidence contains the imposed states, the counterfactual answer is the ordinary posterior. -/
theorem C45_consistency {ch : Choices V} (hch : ch.Ok) {m : SCM II LL} {B : BN V S K} (h : CausalOk m B) {d : Obs V S} {T : List V}
    (hq : CfOk B sfx [d] (T.map fun t => (t, 1))) {ev : Obs V S} (hev : EvOk B ev) {e : Option (Obs V S)} (hee : e.getD [] = ev)
    (hp : B.marg (Dict.keys ev) (asg ev) ≠ 0) (hTe : ∀ t ∈ T, t ∉ Dict.keys ev)
    (hsub : ∀ v s, Dict.get? d v = some s → Dict.get? ev v = some s) :
    ∃ m' r r', new m = .ok m' ∧ counterfactualQuery sfx ch m' T [d] e none = .ok r ∧
      ((VEObj.new m'.base : VEObj _ II).query ch T e).2 = .ok r' ∧
      ∀ obs, FullObs r'.dom obs → r.getValue (T.map fun t => (sfx t 1, asg obs t)) = r'.getValue obs := by
  have hE := BN.eqs_inner h.valid h.norm h.equations
  have hrn : B.roots.Nodup := h.valid.nodes.filter _
  have hTi : ∀ t ∈ T, t ∈ B.inner := fun t ht => (hq.target (t, 1) (List.mem_map.2 ⟨t, ht, rfl⟩)).1
  have hTn : T.Nodup := (List.nodup_map_iff (fun a b e => by simpa using e)).1 hq.nodup
  have hinj : ∀ t ∈ T, ∀ t' ∈ T, sfx t 1 = sfx t' 1 → t = t' := fun t ht t' ht' e =>
    (hq.inj t (hTi t ht) t' (hTi t' ht') 1 1 (by simp) (by simp) (by simp) (by simp) e).1
  obtain ⟨m', r, n1, r1, r2, r3, r4, r5, r6⟩ := C43_one_world_partial hch h hq hev hee (by rw [BN.cfProb_factual hE hev]; exact hp)
  obtain ⟨m'', k1, k2, k3, _⟩ := new_ok h
  rw [n1] at k1
  injection k1 with k1
  subst k1
  have hgq : GoodQuery B T ev := ⟨by simpa using hq.nonempty, hTn, fun t ht => (BN.mem_inner.1 (hTi t ht)).1, hev, hTe⟩
  obtain ⟨r', s1, s2, s3, s4, _, s6⟩ := C36_exact_posterior hch (VEObj.new m'.base : VEObj _ II) (k2.represents k3) h.valid h.norm hgq hee hp
  refine ⟨m', r, r', n1, r1, s1, fun obs ho => ?_⟩
  have hst : ∀ t ∈ T, (asg obs : V → S) t ∈ B.states t := fun t ht => Factor.states_of_inDom s3 ho.inDom t ((s4 t).2 ht)
  have hnk : (Dict.keys (T.map fun t => (sfx t 1, (asg obs : V → S) t))).Nodup := by
    rw [Dict.keys, List.map_map]
    exact List.Nodup.map_on (fun t ht t' ht' e => hinj t ht t' ht' e) hTn
  have hget : ∀ t ∈ T, Dict.get? (T.map fun t => (sfx t 1, (asg obs : V → S) t)) (sfx t 1) = some (asg obs t) := fun t ht =>
    Dict.get?_of_mem hnk (List.mem_map.2 ⟨t, ht, rfl⟩)
  have ho' : FullObs r.dom (T.map fun t => (sfx t 1, (asg obs : V → S) t)) := by
    intro p hp
    obtain ⟨t, ht, e1, e2⟩ := r5 p hp
    exact ⟨asg obs t, by rw [e2]; exact hst t ht, by rw [e1]; exact hget t ht⟩
  have hmap : (T.map fun t => (t, (asg (T.map fun t => (sfx t 1, (asg obs : V → S) t)) : V → S) (sfx t 1))) = T.map fun t => (t, asg obs t) :=
    List.map_congr_left fun t ht => by rw [asg, over_of_get? (hget t ht)]
  rw [r6 _ ho', s6 obs ho, hmap, BN.cfProb_factual hE hev]
  congr 3
  -- the numerators
  have hkT : Dict.keys (T.map fun t => (t, (asg obs : V → S) t)) = T := by simp [Dict.keys, Function.comp_def]
  have hgetT : ∀ t ∈ T, Dict.get? (T.map fun t => (t, (asg obs : V → S) t)) t = some (asg obs t) := fun t ht =>
    Dict.get?_of_mem (by rw [hkT]; exact hTn) (List.mem_map.2 ⟨t, ht, rfl⟩)
  have hevT : EvOk B ((T.map fun t => (t, (asg obs : V → S) t)) ++ ev) := by
    refine ⟨?_, ?_, fun v s hs => ?_⟩
    · rw [Dict.keys_append, hkT, List.nodup_append']
      exact ⟨hTn, hev.nodup, fun t ht hc => hTe t ht hc⟩
    · rw [Dict.keys_append, hkT]
      intro v hv
      rcases List.mem_append.1 hv with hv | hv
      · exact hgq.nodes v hv
      · exact hev.nodes v hv
    · by_cases hv : v ∈ T
      · rw [Dict.get?_append, hgetT v hv] at hs
        have : asg obs v = s := by simpa using hs
        rw [← this]; exact hst v hv
      · rw [Dict.get?_append, Dict.get?_eq_none.2 (by rw [hkT]; exact hv)] at hs
        exact hev.states v s (by simpa using hs)
  have hdo : B.DoOk d := fun v s hs _ => hq.doStates d List.mem_cons_self v s hs
  have e1 : B.marg (T ++ Dict.keys ev) (asg (ev ++ obs)) = B.marg (Dict.keys ((T.map fun t => (t, (asg obs : V → S) t)) ++ ev))
      (asg ((T.map fun t => (t, (asg obs : V → S) t)) ++ ev)) := by
    rw [Dict.keys_append, hkT]
    refine h.valid.marg_dep _ _ _ fun v hv => ?_
    rw [asg_append, asg_append]
    by_cases hve : v ∈ Dict.keys ev
    · have hvT : v ∉ T := fun hc => hTe v hc hve
      obtain ⟨s, hs⟩ := Option.isSome_iff_exists.1 (Dict.get?_isSome.2 hve)
      rw [over_of_get? hs, over_of_not_mem (by rw [hkT]; exact hvT), asg, over_of_get? hs]
    · have hvT : v ∈ T := (List.mem_append.1 hv).resolve_right hve
      rw [over_of_not_mem hve, over_of_get? (hgetT v hvT)]
  rw [e1, ← BN.cfProb_factual hE hevT]
  refine BN.cfProb_congr hrn fun u hu => ?_
  have hcons := BN.holds_consistent hE hdo hev.nodes (t := T.map fun t => (t, (asg obs : V → S) t)) (by rw [hkT]; exact hgq.nodes) hsub hu
  obtain ⟨b, b1, b2⟩ := BN.exists_solves hE BN.DoOk.nil hu
  have hb := fun c hc => BN.holds_sol (c := c) hE BN.DoOk.nil hc hu b2 b1
  simp only [List.forall_mem_cons, List.not_mem_nil, false_imp_iff, implies_true, and_true]
  rw [hcons, hb _ hev.nodes, hb _ (by rw [hkT]; exact hgq.nodes), hb _ hevT.nodes]
  constructor
  · rintro ⟨a1, a2⟩ v s hs
    rw [Dict.get?_append] at hs
    cases hv : Dict.get? (T.map fun t => (t, (asg obs : V → S) t)) v with
    | some x => rw [hv] at hs; exact a2 v s (by rw [hv]; simpa using hs)
    | none => rw [hv] at hs; exact a1 v s (by simpa using hs)
  · intro a
    refine ⟨fun v s hs => a v s ?_, fun v s hs => a v s ?_⟩
    · rw [Dict.get?_append, Dict.get?_eq_none.2 fun hc => ?_, hs]; rfl
      rw [hkT] at hc
      exact hTe v hc (Dict.mem_keys_of_mem (Dict.mem_of_get? hs))
    · rw [Dict.get?_append, hs]; rfl

/-! ### C46 -/

/-- A cause and an effect for which the probabilities of causation are defined and the code finds them: both are
endogenous, the cause has a child, and the copies of the variables have new names. -/
structure CausationOk (B : BN V S K) (sfx : V → Nat → V) (c e : V) (tc fc te fe : S) : Prop where
  cause : c ∈ B.inner
  effect : e ∈ B.inner
  ne : c ≠ e
  child : ∃ x ∈ B.nodes, c ∈ B.parents x
  trueCause : tc ∈ B.states c
  falseCause : fc ∈ B.states c
  trueEffect : te ∈ B.states e
  falseEffect : fe ∈ B.states e
  fresh : ∀ v ∈ B.inner, ∀ i, 1 ≤ i → i ≤ 2 → sfx v i ∉ B.nodes
  inj : ∀ v ∈ B.inner, ∀ w ∈ B.inner, ∀ i j, 1 ≤ i → i ≤ 2 → 1 ≤ j → j ≤ 2 → sfx v i = sfx w j → v = w ∧ i = j

theorem CausationOk.worlds {B : BN V S K} (hB : B.Valid) {c e : V} {tc fc te fe : S} (h : CausationOk B sfx c e tc fc te fe)
    {l : List S} (hl : ∀ s ∈ l, s ∈ B.states c) (hlen : l.length ≤ 2) : WorldsOk B sfx (l.map fun s => [(c, s)]) := by
  have hmem : ∀ d ∈ l.map fun s => [(c, s)], ∃ s ∈ B.states c, d = [(c, s)] := by
    intro d hd
    obtain ⟨s, hs, rfl⟩ := List.mem_map.1 hd
    exact ⟨s, hl s hs, rfl⟩
  refine ⟨fun d hd => ?_, fun d hd v hv => ?_, fun d hd v s hs => ?_, fun d hd v hv => ?_, fun v hv i h1 h2 => ?_, fun v hv w hw i j h1 h2 h3 h4 => ?_⟩
  · obtain ⟨s, _, rfl⟩ := hmem d hd; simp
  · obtain ⟨s, _, rfl⟩ := hmem d hd
    simp at hv; rw [hv]; exact h.cause
  · obtain ⟨t, ht, rfl⟩ := hmem d hd
    have := Dict.mem_of_get? hs
    simp only [List.mem_singleton, Prod.mk.injEq] at this
    rw [this.1, this.2]; exact ht
  · obtain ⟨s, _, rfl⟩ := hmem d hd
    simp at hv
    obtain ⟨x, hx, hcx⟩ := h.child
    refine ⟨x, hx, by rw [hv]; exact hcx, ?_⟩
    simp only [Dict.keys_cons, Dict.keys_nil, List.mem_singleton]
    rintro rfl
    exact hB.acyclic x (.single ⟨hx, hcx⟩)
  · exact h.fresh v hv i h1 (h2.trans (by simpa using hlen))
  · exact h.inj v hv w hw i j h1 (h2.trans (by simpa using hlen)) h3 (h4.trans (by simpa using hlen))

/-- Evidence on the cause and the effect. -/
theorem CausationOk.evOk {B : BN V S K} {c e : V} {tc fc te fe : S} (h : CausationOk B sfx c e tc fc te fe) {s t : S}
    (hs : s ∈ B.states c) (ht : t ∈ B.states e) : EvOk B [(c, s), (e, t)] := by
  refine ⟨by simp [h.ne], fun v hv => ?_, fun v x hx => ?_⟩
  · simp at hv
    rcases hv with rfl | rfl
    · exact (BN.mem_inner.1 h.cause).1
    · exact (BN.mem_inner.1 h.effect).1
  · have := Dict.mem_of_get? hx
    simp only [List.mem_cons, Prod.mk.injEq, List.not_mem_nil, or_false] at this
    rcases this with ⟨rfl, rfl⟩ | ⟨rfl, rfl⟩
    · exact hs
    · exact ht

/-- One world: the counterfactual distribution of the effect. -/
theorem causation_one {ch : Choices V} (hch : ch.Ok) {m : SCM II LL} {B : BN V S K} (h : CausalOk m B) {c e : V} {tc fc te fe : S}
    (hc : CausationOk B sfx c e tc fc te fe) {s s' t t' : S} (hs : s ∈ B.states c) (hs' : s' ∈ B.states c) (ht : t ∈ B.states e)
    (ht' : t' ∈ B.states e) (hp : B.marg [c, e] (asg [(c, s), (e, t)]) ≠ 0) :
    ∃ m', new m = .ok m' ∧ (do
      let r ← counterfactualQuery sfx ch m' [e] [[(c, s')]] (some [(c, s), (e, t)]) none
      r.getValue [(sfx e 1, t')]) =
      .ok (.fin (B.cfProb B.roots B.inner [([], [(c, s), (e, t)]), ([(c, s')], [(e, t')])] / B.marg [c, e] (asg [(c, s), (e, t)]))) := by
  have hE := BN.eqs_inner h.valid h.norm h.equations
  have hev := hc.evOk hs ht
  have hq : CfOk B sfx [[(c, s')]] ([e].map fun t => (t, 1)) := by
    refine ⟨hc.worlds h.valid (l := [s']) (by simpa using hs') (by simp), by simp, by simp, fun q hq => ?_⟩
    simp only [List.map_cons, List.map_nil, List.mem_singleton] at hq
    subst hq
    refine ⟨hc.effect, le_refl _, by simp, fun d hd => ?_⟩
    simp only [Nat.sub_self, List.getElem?_cons_zero, Option.some.injEq] at hd
    subst hd
    simpa using hc.ne.symm
  have hf := BN.cfProb_factual hE hev
  obtain ⟨m', r, n1, r1, _, r3, _, r5, r6⟩ := C43_one_world_partial hch h hq hev (e := some [(c, s), (e, t)]) rfl (by rw [hf]; exact hp)
  refine ⟨m', n1, ?_⟩
  rw [r1, py_ok_bind, r6 _ fun p hp => ?_, hf]
  · have : (asg [(sfx e 1, t')] : V → S) (sfx e 1) = t' := over_of_get? (by simp [Dict.get?])
    simp only [List.map_cons, List.map_nil, this]
    rfl
  · obtain ⟨x, hx, e1, e2⟩ := r5 p hp
    rw [List.mem_singleton] at hx
    subst hx
    exact ⟨t', by rw [e2]; exact ht', by rw [e1]; simp [Dict.get?]⟩

/-- **C46** (partial) probability of necessity: among the cases with the cause and the effect, those in which the effect
would have been absent without the cause. -/
theorem C46_necessity_partial {ch : Choices V} (hch : ch.Ok) {m : SCM II LL} {B : BN V S K} (h : CausalOk m B) {c e : V} {tc fc te fe : S}
    (hc : CausationOk B sfx c e tc fc te fe) (hp : B.marg [c, e] (asg [(c, tc), (e, te)]) ≠ 0) :
    ∃ m', new m = .ok m' ∧ pn sfx ch m' c e tc fc te fe = .ok (.fin
      (B.cfProb B.roots B.inner [([], [(c, tc), (e, te)]), ([(c, fc)], [(e, fe)])] / B.marg [c, e] (asg [(c, tc), (e, te)]))) :=
  causation_one hch h hc hc.trueCause hc.falseCause hc.trueEffect hc.falseEffect hp

/-- **C46** (partial) probability of sufficiency: among the cases without the cause and the effect, those in which the
effect would have been present with the cause. -/
theorem C46_sufficiency_partial {ch : Choices V} (hch : ch.Ok) {m : SCM II LL} {B : BN V S K} (h : CausalOk m B) {c e : V} {tc fc te fe : S}
    (hc : CausationOk B sfx c e tc fc te fe) (hp : B.marg [c, e] (asg [(c, fc), (e, fe)]) ≠ 0) :
    ∃ m', new m = .ok m' ∧ ps sfx ch m' c e tc fc te fe = .ok (.fin
      (B.cfProb B.roots B.inner [([], [(c, fc), (e, fe)]), ([(c, tc)], [(e, te)])] / B.marg [c, e] (asg [(c, fc), (e, fe)]))) :=
  causation_one hch h hc hc.falseCause hc.trueCause hc.falseEffect hc.trueEffect hp

/-- **C46** (partial) probability of necessity and sufficiency: the cases in which the effect would be absent without the
cause and present with it. -/
theorem C46_necessity_sufficiency_partial {ch : Choices V} (hch : ch.Ok) {m : SCM II LL} {B : BN V S K} (h : CausalOk m B) {c e : V}
    {tc fc te fe : S} (hc : CausationOk B sfx c e tc fc te fe) :
    ∃ m', new m = .ok m' ∧ pns sfx ch m' c e tc fc te fe = .ok (.fin
      (B.cfProb B.roots B.inner [([], []), ([(c, fc)], [(e, fe)]), ([(c, tc)], [(e, te)])])) := by
  have hE := BN.eqs_inner h.valid h.norm h.equations
  have hev : EvOk B ([] : Obs V S) := ⟨by simp, by simp, fun v s hs => by cases hs⟩
  have hq : CfOk B sfx [[(c, fc)], [(c, tc)]] [(e, 1), (e, 2)] := by
    refine ⟨hc.worlds h.valid (l := [fc, tc]) (by simp [hc.falseCause, hc.trueCause]) (by simp), by simp, by simp, fun q hq => ?_⟩
    simp only [List.mem_cons, List.not_mem_nil, or_false] at hq
    rcases hq with rfl | rfl
    · refine ⟨hc.effect, le_refl _, by simp, fun d hd => ?_⟩
      simp only [Nat.sub_self, List.getElem?_cons_zero, Option.some.injEq] at hd
      subst hd
      simpa using hc.ne.symm
    · refine ⟨hc.effect, by simp, by simp, fun d hd => ?_⟩
      simp only [Nat.add_one_sub_one, List.getElem?_cons_succ, List.getElem?_cons_zero, Option.some.injEq] at hd
      subst hd
      simpa using hc.ne.symm
  have hf : B.cfProb B.roots B.inner [([], [])] = 1 := BN.cfProb_total hE
  obtain ⟨m', r, n1, r1, _, _, _, r5, r6⟩ := C43_counterfactual_partial hch h hq hev (e := none) rfl (by rw [hf]; exact one_ne_zero)
  have hne : sfx e 1 ≠ sfx e 2 := fun e' => by
    have := (hc.inj e hc.effect e hc.effect 1 2 (by decide) (by decide) (by decide) (by decide) e').2
    cases this
  refine ⟨m', n1, ?_⟩
  have r1 : counterfactualQuery sfx ch m' [e, e] [[(c, fc)], [(c, tc)]] none (some [1, 2]) = .ok r := r1
  rw [pns, r1, py_ok_bind, r6 _ fun p hp => ?_, hf, div_one]
  · have h1 : (asg [(sfx e 1, fe), (sfx e 2, te)] : V → S) (sfx e 1) = fe := over_of_get? (by simp [Dict.get?])
    have h2 : (asg [(sfx e 1, fe), (sfx e 2, te)] : V → S) (sfx e 2) = te := over_of_get? (by simp [Dict.get?, hne])
    simp [targetObs, List.zipIdx, h1, h2]
  · obtain ⟨q, hq', e1, e2⟩ := r5 p hp
    simp only [List.mem_cons, List.not_mem_nil, or_false] at hq'
    rcases hq' with rfl | rfl
    · exact ⟨fe, by rw [e2]; exact hc.falseEffect, by rw [e1]; simp [Dict.get?]⟩
    · exact ⟨te, by rw [e2]; exact hc.trueEffect, by rw [e1]; simp [Dict.get?, hne]⟩

/-- **C46** (partial) the three probabilities lie between zero and one. -/
theorem C46_range_partial {ch : Choices V} (hch : ch.Ok) {m : SCM II LL} {B : BN V S K} (h : CausalOk m B) (hnn : B.NonNeg) {c e : V}
    {tc fc te fe : S} (hc : CausationOk B sfx c e tc fc te fe) {m' : SCM II LL} (hm : new m = .ok m') :
    (∃ x : K, pns sfx ch m' c e tc fc te fe = .ok (.fin x) ∧ 0 ≤ x ∧ x ≤ 1) ∧
    (B.marg [c, e] (asg [(c, tc), (e, te)]) ≠ 0 → ∃ x : K, pn sfx ch m' c e tc fc te fe = .ok (.fin x) ∧ 0 ≤ x ∧ x ≤ 1) ∧
    (B.marg [c, e] (asg [(c, fc), (e, fe)]) ≠ 0 → ∃ x : K, ps sfx ch m' c e tc fc te fe = .ok (.fin x) ∧ 0 ≤ x ∧ x ≤ 1) := by
  have hE := BN.eqs_inner h.valid h.norm h.equations
  have frac : ∀ {s t : S} (w : Obs V S × Obs V S), s ∈ B.states c → t ∈ B.states e →
      0 ≤ B.cfProb B.roots B.inner [([], [(c, s), (e, t)]), w] / B.marg [c, e] (asg [(c, s), (e, t)]) ∧
      B.cfProb B.roots B.inner [([], [(c, s), (e, t)]), w] / B.marg [c, e] (asg [(c, s), (e, t)]) ≤ 1 := by
    intro s t w hs ht
    have hf : _ = B.marg [c, e] (asg [(c, s), (e, t)]) := BN.cfProb_factual hE (hc.evOk hs ht)
    rw [← hf]
    exact ⟨div_nonneg (BN.cfProb_nonneg h.valid hnn _) (BN.cfProb_nonneg h.valid hnn _),
      div_le_one_of_le₀ (BN.cfProb_mono h.valid hnn (by simp)) (BN.cfProb_nonneg h.valid hnn _)⟩
  refine ⟨?_, fun hp => ?_, fun hp => ?_⟩
  · obtain ⟨m'', e1, e2⟩ := C46_necessity_sufficiency_partial hch h hc
    rw [hm] at e1; injection e1 with e1; subst e1
    refine ⟨_, e2, BN.cfProb_nonneg h.valid hnn _, ?_⟩
    rw [← BN.cfProb_total hE]
    exact BN.cfProb_mono h.valid hnn (by simp)
  · obtain ⟨m'', e1, e2⟩ := C46_necessity_partial hch h hc hp
    rw [hm] at e1; injection e1 with e1; subst e1
    exact ⟨_, e2, frac _ hc.trueCause hc.trueEffect⟩
  · obtain ⟨m'', e1, e2⟩ := C46_sufficiency_partial hch h hc hp
    rw [hm] at e1; injection e1 with e1; subst e1
    exact ⟨_, e2, frac _ hc.falseCause hc.falseEffect⟩

/-- **C46** (partial) for a binary cause, PNS = P(x, y) PN + P(x', y') PS. -/
theorem C46_identity_partial {ch : Choices V} (hch : ch.Ok) {m : SCM II LL} {B : BN V S K} (h : CausalOk m B) {c e : V}
    {tc fc te fe : S} (hc : CausationOk B sfx c e tc fc te fe) (hne : tc ≠ fc) (hst : ∀ s ∈ B.states c, s = tc ∨ s = fc)
    {m' : SCM II LL} (hm : new m = .ok m') (hp : B.marg [c, e] (asg [(c, tc), (e, te)]) ≠ 0)
    (hp' : B.marg [c, e] (asg [(c, fc), (e, fe)]) ≠ 0) :
    ∃ x y z : K, pns sfx ch m' c e tc fc te fe = .ok (.fin x) ∧ pn sfx ch m' c e tc fc te fe = .ok (.fin y) ∧
      ps sfx ch m' c e tc fc te fe = .ok (.fin z) ∧
      x = B.marg [c, e] (asg [(c, tc), (e, te)]) * y + B.marg [c, e] (asg [(c, fc), (e, fe)]) * z := by
  have hE := BN.eqs_inner h.valid h.norm h.equations
  obtain ⟨m1, e1, e2⟩ := C46_necessity_sufficiency_partial hch h hc
  obtain ⟨m2, f1, f2⟩ := C46_necessity_partial hch h hc hp
  obtain ⟨m3, g1, g2⟩ := C46_sufficiency_partial hch h hc hp'
  rw [hm] at e1 f1 g1
  injection e1 with e1; subst e1
  injection f1 with f1; subst f1
  injection g1 with g1; subst g1
  refine ⟨_, _, _, e2, f2, g2, ?_⟩
  rw [mul_div_cancel₀ _ hp, mul_div_cancel₀ _ hp']
  refine BN.cfProb_pns hE hc.ne hc.cause hc.effect hne fun s => ⟨hst s, ?_⟩
  rintro (rfl | rfl)
  · exact hc.trueCause
  · exact hc.falseCause

end worlds

/-! ### Examples -/

section examples

/-- The example model is a structural causal model with exogenous `U`, `W` and endogenous `X`, `Y`, `Z`. -/
theorem ex_causal (vt : VType) : ∃ (m : SCM (IS vt PyStr) (LS vt PyStr)) (b : DagModel (Factor (IS vt PyStr)) PyStr Char),
    exScm vt none false = .ok m ∧ exBnet vt = .ok b ∧ CausalOk m (BN.ofModel (IS vt PyStr) b : BN PyStr Char ℚ) ∧
    (BN.ofModel (IS vt PyStr) b : BN PyStr Char ℚ).NonNeg ∧ m.base.graph = gScm := by
  obtain ⟨l, b, hb, h⟩ := ex_scm_net vt
  obtain ⟨m, h1, h2, h3, _, h5⟩ := h.model (e := none) (by decide) false
  have hc : (match exBnet vt with
      | .ok b => decide ((BN.ofModel (IS vt PyStr) b : BN PyStr Char ℚ).inner = [sX, sY, sZ] ∧
          (BN.ofModel (IS vt PyStr) b : BN PyStr Char ℚ).roots = [sU, sW])
      | .error _ => false) = true := by cases vt <;> decide +kernel
  have hd : (match exScm vt none false with
      | .ok m => [sU, sW].all fun v => ((Dict.get? m.base.factors v).getD none).all fun f => !f.isDet
      | .error _ => false) = true := by cases vt <;> decide +kernel
  have h1' : exScm vt none false = .ok m := by rw [exScm, h.facs]; exact h1
  rw [hb] at hc
  rw [h1'] at hd
  simp only [decide_eq_true_eq] at hc
  refine ⟨m, b, h1', hb, ⟨h2, h.valid, h.norm, fun v hv => h.equations v (by rw [← hc.1]; exact hv) (BN.mem_inner.1 hv).1, fun v hv f hf => ?_⟩, h.nonneg, h5⟩
  rw [hc.2] at hv
  have := List.all_eq_true.1 hd v hv
  rw [hf] at this
  simpa using this

/-- Names of copies are different for different strings, so only their being new is asked for. -/
theorem worldsOk_str {B : BN PyStr Char ℚ} {dos : List (Obs PyStr Char)} (h1 : ∀ d ∈ dos, (Dict.keys d).Nodup)
    (h2 : ∀ d ∈ dos, ∀ v ∈ Dict.keys d, v ∈ B.inner) (h3 : ∀ d ∈ dos, ∀ v s, Dict.get? d v = some s → s ∈ B.states v)
    (h4 : ∀ d ∈ dos, ∀ v ∈ Dict.keys d, ∃ c ∈ B.nodes, v ∈ B.parents c ∧ c ∉ Dict.keys d)
    (h5 : ∀ v ∈ B.inner, ∀ i, 1 ≤ i → i ≤ dos.length → pySfx v i ∉ B.nodes) : WorldsOk B pySfx dos :=
  ⟨h1, h2, h3, h4, h5, fun _ _ _ _ _ _ _ _ _ _ e => pySfx_inj e⟩

end examples

end Props
end Verif
