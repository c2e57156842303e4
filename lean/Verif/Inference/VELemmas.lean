import Verif.Model.Represents
import Verif.Model.Lemmas
import Verif.Inference.ElimLemmas
import Verif.Net.Prune
import Verif.Net.Clamp

/-!
# Correctness of pruning followed by variable elimination: helper lemmas
-/

set_option linter.unusedSectionVars false
set_option linter.unusedSimpArgs false

namespace Verif

variable {V S K : Type} [DecidableEq V] [DecidableEq S] [Nonempty S] [Field K] [LinearOrder K]
  {I : StoreImpl V S (Fl K)} {F : Type} [VEFactor F I]

theorem mem_filter_not (l X : List V) (v : V) : v ∈ l.filter (· ∉ X) ↔ v ∈ l ∧ v ∉ X := by simp

theorem over_upd_comm {ev : Obs V S} {v : V} (hv : v ∉ Dict.keys ev) (a : V → S) (s : S) :
    over ev (upd a v s) = upd (over ev a) v s := by
  funext w
  by_cases hw : w = v
  · subst hw; rw [over_of_not_mem hv, upd_same, upd_same]
  · rw [upd_ne _ _ hw, over, over, upd_ne _ _ hw]

theorem sumOver_over {D : V → List S} {xs : List V} {ev : Obs V S} (hx : ∀ x ∈ xs, x ∉ Dict.keys ev)
    (f : (V → S) → K) (a : V → S) : sumOver D xs (fun b => f (over ev b)) a = sumOver D xs f (over ev a) := by
  induction xs generalizing a with
  | nil => rfl
  | cons x xs ih =>
    simp only [sumOver_cons]
    congr 1
    refine List.map_congr_left fun s _ => ?_
    rw [ih fun y hy => hx y (List.mem_cons_of_mem _ hy), over_upd_comm (hx x List.mem_cons_self)]

theorem IsTable.rep (hI : I.Lawful) {B : BN V S K} (hB : B.Valid) {v : V} (hv : v ∈ B.nodes) {g : Factor I}
    (h : IsTable B v g) : Factor.Rep B.states g (B.ctab v) := by
  refine ⟨h.wf, h.dom, fun a ha => ?_⟩
  have hd := h.wf.domOk hI
  -- read the cell with the observation made of `a`
  let obs : Obs V S := g.dom.map fun p => (p.1, a p.1)
  have hget : ∀ w ∈ g.vars, Dict.get? obs w = some (a w) := by
    intro w hw
    obtain ⟨st, hst⟩ := Dict.mem_keys.1 hw
    refine Dict.get?_of_mem ?_ (List.mem_map.2 ⟨(w, st), hst, rfl⟩)
    have : Dict.keys obs = Dict.keys g.dom := by simp [obs, Dict.keys, List.map_map, Function.comp_def]
    rw [this]; exact hd.keys
  have hfull : FullObs g.dom obs := by
    intro p hp
    have hpv : p.1 ∈ g.vars := Dict.mem_keys_of_mem hp
    exact ⟨a p.1, by rw [h.dom p hp]; exact ha _ hpv, hget _ hpv⟩
  have hagree : ∀ w ∈ g.vars, (asg obs : V → S) w = a w := fun w hw => over_of_get? (hget w hw)
  have h1 := h.value obs hfull
  rw [Factor.getValue_full hI h.wf hfull] at h1
  have h2 : g.sem (asg obs) = .fin (B.table v (asg obs)) := by injection h1
  rw [← h.wf.sem_congr hI hagree, h2]
  congr 1
  rw [hB.ctab_eq hv fun w hw => ha w ((h.vars w).2 (List.mem_cons.1 hw))]
  exact hB.scope v hv _ _ fun w hw => hagree w ((h.vars w).2 (List.mem_cons.1 hw))

/-- The tables restricted to the observed parents. -/
def evTab (B : BN V S K) (ev : Obs V S) (v : V) (a : V → S) : K :=
  B.ctab v (over (ev.filter fun q => q.1 ∈ B.parents v) a)

theorem keys_evFilter (ev : Obs V S) (P : List V) :
    Dict.keys (ev.filter fun q => q.1 ∈ P) = (Dict.keys ev).filter (· ∈ P) :=
  Dict.keys_filter_key ev (fun v => v ∈ P)

theorem evTab_tables {B : BN V S K} (hB : B.Valid) (hn : B.Normalised) (ev : Obs V S) {C : List V} (hC : C.Nodup)
    (hs : ∀ v ∈ C, v ∈ B.nodes) :
    Tables B.states (fun v => (B.parents v).filter (· ∉ Dict.keys ev)) (evTab B ev) C := by
  have hT := hB.tables hn
  obtain ⟨r, hr⟩ := hT.rank
  refine ⟨hC, ⟨r, fun v hv p hp => hr v (hs v hv) p (List.mem_filter.1 hp).1⟩, ?_, ?_⟩
  · intro v hv a b hab
    refine hT.scope v (hs v hv) _ _ fun w hw => ?_
    by_cases hk : w ∈ Dict.keys (ev.filter fun q => q.1 ∈ B.parents v)
    · obtain ⟨s, hs⟩ := Option.isSome_iff_exists.1 (Dict.get?_isSome.2 hk)
      rw [over_of_get? hs, over_of_get? hs]
    · rw [over_of_not_mem hk, over_of_not_mem hk]
      refine hab w ?_
      rcases List.mem_cons.1 hw with rfl | hw
      · exact List.mem_cons_self
      · refine List.mem_cons_of_mem _ (List.mem_filter.2 ⟨hw, ?_⟩)
        simp only [decide_eq_true_eq]
        intro hc
        exact hk (by rw [keys_evFilter]; exact List.mem_filter.2 ⟨hc, by simpa using hw⟩)
  · intro v hv a
    have hvv : v ∉ Dict.keys (ev.filter fun q => q.1 ∈ B.parents v) := by
      rw [keys_evFilter]
      intro hc
      exact hT.irrefl (hs v hv) (by simpa using (List.mem_filter.1 hc).2)
    have : ∀ s, evTab B ev v (upd a v s) =
        B.ctab v (upd (over (ev.filter fun q => q.1 ∈ B.parents v) a) v s) := fun s => by
      rw [evTab, over_upd_comm hvv]
    simp only [this]
    exact hT.norm v (hs v hv) _

/-- At assignments that agree with the evidence nothing changes. -/
theorem evTab_eq {B : BN V S K} (ev : Obs V S) (v : V) {a : V → S} (ha : ∀ w s, Dict.get? ev w = some s → a w = s) :
    evTab B ev v a = B.ctab v a := by
  have : over (ev.filter fun q => q.1 ∈ B.parents v) a = a := by
    funext w
    rw [over]
    rw [Dict.get?_filter_key ev (fun v' => v' ∈ B.parents v)]
    split
    · cases h : Dict.get? ev w with
      | none => rfl
      | some s => exact (ha w s h).symm
    · rfl
  rw [evTab, this]

theorem sum_evTab {B : BN V S K} (ev : Obs V S) (C : List V) {xs : List V} (hn : xs.Nodup)
    (hx : ∀ x ∈ xs, x ∉ Dict.keys ev) (a : V → S) :
    sumOver B.states xs (prodT (evTab B ev) C) (over ev a) = sumOver B.states xs (prodT B.ctab C) (over ev a) := by
  refine sumOver_congr hn fun b hb _ => prodT_congr fun v _ => evTab_eq ev v fun w s hw => ?_
  have hk : w ∈ Dict.keys ev := Dict.get?_isSome.1 (by rw [hw]; rfl)
  rw [hb w (fun h => hx w h hk), over_of_get? hw]

/-- Nodes kept by the pruning -/
def kept (g : DiGraph V) (T : List V) (ev : Obs V S) : List V := g.nodes.filter (· ∉ irrelevant g T (Dict.keys ev))

/-- The network that remains after pruning: the kept nodes, without arcs out of observed nodes, and tables restricted
to the observed parents. -/
def prunedBN (B : BN V S K) (g : DiGraph V) (T : List V) (ev : Obs V S) : BN V S K where
  nodes := kept g T ev
  parents v := (B.parents v).filter (· ∉ Dict.keys ev)
  states := B.states
  table v a := B.table v (over (ev.filter fun q => q.1 ∈ B.parents v) a)

/-- Numerator and denominator that the algorithm computes. -/
def veNum (B : BN V S K) (g : DiGraph V) (T : List V) (ev : Obs V S) (a : V → S) : K :=
  sumOver B.states ((kept g T ev).filter (· ∉ T ++ Dict.keys ev)) (prodT B.ctab (kept g T ev)) (over ev a)
def veDen (B : BN V S K) (g : DiGraph V) (T : List V) (ev : Obs V S) (a : V → S) : K :=
  sumOver B.states ((kept g T ev).filter (· ∉ Dict.keys ev)) (prodT B.ctab (kept g T ev)) (over ev a)

theorem Represents.acyclic {m : DagModel F V S} {B : BN V S K} (hr : Represents m B) (hB : B.Valid) :
    m.graph.Acyclic := by
  intro v hv
  refine hB.acyclic v (Relation.TransGen.mono (fun a b hab => ?_) _ _ hv)
  have hb : b ∈ B.nodes := hr.nodes ▸ (hr.wf.ends _ hab).2
  exact ⟨hb, (hr.parents b hb a).2 hab⟩

/-- Both quantities differ from the marginals of the network by the same factor. -/
theorem ve_factor {m : DagModel F V S} {B : BN V S K} (hr : Represents m B) (hB : B.Valid) (hn : B.Normalised)
    {T : List V} (hT : ∀ t ∈ T, t ∈ B.nodes) {ev : Obs V S} (he : EvOk B ev)
    {a : V → S} (ha : ∀ t ∈ T, a t ∈ B.states t) :
    ∃ q, B.marg (T ++ Dict.keys ev) (over ev a) = veNum B m.graph T ev a * q ∧
      B.marg (Dict.keys ev) (over ev a) = veDen B m.graph T ev a * q := by
  have hTn : ∀ t ∈ T, t ∈ m.graph.nodes := fun t ht => hr.nodes ▸ hT t ht
  obtain ⟨M, P, hs⟩ := irrelevant_spec hr.wf (hr.acyclic hB) (E := Dict.keys ev) hTn
  have hTab := hB.tables hn
  have hp : B.nodes.Perm (M ++ (kept m.graph T ev ++ P)) := hr.nodes ▸ hs.perm
  have edge : ∀ v, v ∈ M ++ (kept m.graph T ev ++ P) → ∀ p ∈ B.parents v, m.graph.Edge p v := fun v hv p hpv =>
    (hr.parents v (hp.mem_iff.2 hv) p).1 hpv
  have hst : ∀ v ∈ Dict.keys ev, over ev a v ∈ B.states v := by
    intro v hv
    obtain ⟨s, hs⟩ := Option.isSome_iff_exists.1 (Dict.get?_isSome.2 hv)
    rw [over_of_get? hs]; exact he.states v s hs
  have hsT : ∀ v ∈ T, over ev a v ∈ B.states v := by
    intro v hv
    by_cases hk : v ∈ Dict.keys ev
    · exact hst v hk
    · rw [over_of_not_mem hk]; exact ha v hv
  have split := fun (W : List V) (hW : ∀ w ∈ W, w ∈ kept m.graph T ev) =>
    prune_split hTab hp (W := W) (E := Dict.keys ev)
      (fun v hv p hpv => hs.barren v hv p (edge v (List.mem_append_right _ hv) p hpv))
      hs.obs (fun v hv p hpv hpE => hs.keep v hv p (edge v (by simp [hv]) p hpv) hpE)
      (fun v hv p hpv hpE => hs.drop v hv p (edge v (by simp [hv]) p hpv) hpE) hW (over ev a)
  refine ⟨sumOver B.states (P.filter (· ∉ Dict.keys ev)) (prodT B.ctab P) (over ev a), ?_, ?_⟩
  · rw [hB.marg_eq]
    · exact split T hs.target
    · intro v hv _
      rcases List.mem_append.1 hv with h | h
      · exact hsT v h
      · exact hst v h
  · rw [hB.marg_eq fun v hv _ => hst v hv]
    exact split [] (by simp)

set_option maxHeartbeats 1000000 in
/-- Pruning and elimination succeed and compute the two sums. -/
theorem ve_core (hI : I.Lawful) {ch : Choices V} (hch : ch.Ok) {m : DagModel F V S} {B : BN V S K}
    (hr : Represents m B) (hB : B.Valid) (hn : B.Normalised)
    {T : List V} (hT : ∀ t ∈ T, t ∈ B.nodes) (hTn : T.Nodup) (hT0 : T ≠ [])
    {ev : Obs V S} (he : EvOk B ev) (hdis : ∀ t ∈ T, t ∉ Dict.keys ev) :
    ∃ m' r, minimalize m T ev = .ok m' ∧ Represents m' (prunedBN B m.graph T ev) ∧ veRun ch m' T ev = .ok r ∧ r.WF ∧ (∀ p ∈ r.dom, p.2 = B.states p.1) ∧
      (∀ v, v ∈ r.vars ↔ v ∈ T) ∧ (∀ v, v ∈ r.leftVars ↔ v ∈ T) ∧
      ∀ a, (∀ t ∈ T, a t ∈ B.states t) →
        r.sem a = I.divWrap Fl.nanToNum (.fin (veNum B m.graph T ev a) / .fin (veDen B m.graph T ev a)) := by
  classical
  have hTg : ∀ t ∈ T, t ∈ m.graph.nodes := fun t ht => hr.nodes ▸ hT t ht
  obtain ⟨M, P, hs⟩ := irrelevant_spec hr.wf (hr.acyclic hB) (E := Dict.keys ev) hTg
  set E := Dict.keys ev with hE
  set irr := irrelevant m.graph T E with hirr
  set C := m.graph.nodes.filter (· ∉ irr) with hC
  have mC : ∀ v, v ∈ C ↔ v ∈ m.graph.nodes ∧ v ∉ irr := by intro v; simp [hC]
  have hCB : ∀ v ∈ C, v ∈ B.nodes := fun v hv => hr.nodes ▸ ((mC v).1 hv).1
  have hCn : C.Nodup := hr.wf.nodes.filter _
  -- the restricted factors
  have hfac : ∀ v, ∃ f g r, v ∈ C → Dict.get? m.factors v = some (some f) ∧ VEFactor.view f = some g ∧
      IsTable B v g ∧ VEFactor.restrict f (ev.filter fun q => q.1 ∈ FactorLike.rightVars f) = .ok r ∧
      Factor.Rep B.states r (evTab B ev v) ∧
      (∀ w, w ∈ r.vars ↔ w = v ∨ w ∈ (B.parents v).filter (· ∉ E)) ∧ (∀ w, w ∈ r.leftVars ↔ w = v) ∧
      (∀ w, w ∈ r.rightVars ↔ w ∈ (B.parents v).filter (· ∉ E)) := by
    intro v
    by_cases hv : v ∈ C
    · obtain ⟨f, g, h1, h2, h3⟩ := hr.table v (hCB v hv)
      have hright : FactorLike.rightVars f = g.rightVars := VEFactor.view_right f g h2
      have hflt : (ev.filter fun q => q.1 ∈ FactorLike.rightVars f) = ev.filter fun q => q.1 ∈ B.parents v := by
        rw [hright]
        refine List.filter_congr fun q _ => ?_
        simp only [h3.right]
      have hirrfl : v ∉ B.parents v := (hB.tables hn).irrefl (hCB v hv)
      obtain ⟨r, r1, r2, r3, r4⟩ := (h3.rep hI hB (hCB v hv)).restrict hI
        (obs := ev.filter fun q => q.1 ∈ B.parents v) (by
          intro w _ s hs
          rw [Dict.get?_filter_key ev (fun v' => v' ∈ B.parents v)] at hs
          split at hs
          · exact he.states w s hs
          · cases hs)
      have hobs : ObsOk g.dom (ev.filter fun q => q.1 ∈ B.parents v) := by
        intro p hp s hs
        rw [Dict.get?_filter_key ev (fun v' => v' ∈ B.parents v)] at hs
        rw [h3.dom p hp]
        split at hs
        · exact he.states _ s hs
        · cases hs
      obtain ⟨r', r1', _, _, r5, _⟩ := Factor.restrict_ok hI h3.wf hobs
      rw [r1] at r1'; injection r1' with r1'; subst r1'
      refine ⟨f, g, r, fun _ => ⟨h1, h2, h3, ?_, r2, ?_, ?_, ?_⟩⟩
      · rw [hflt, VEFactor.restrict, h2]; exact r1
      · intro w
        rw [r3, h3.vars, keys_evFilter]
        simp only [List.mem_filter, decide_eq_true_eq]
        constructor
        · rintro ⟨rfl | h, h'⟩
          · exact .inl rfl
          · exact .inr ⟨h, fun hc => h' ⟨hc, h⟩⟩
        · rintro (rfl | h)
          · exact ⟨.inl rfl, fun hc => hirrfl hc.2⟩
          · exact ⟨.inr h.1, fun hc => h.2 hc.1⟩
      · intro w
        rw [r4, h3.left, keys_evFilter]
        simp only [List.mem_filter, decide_eq_true_eq]
        constructor
        · exact fun h => h.1
        · rintro rfl; exact ⟨rfl, fun hc => hirrfl hc.2⟩
      · intro w
        rw [r5, r3, h3.right, mem_filter_not, keys_evFilter]
        have hgv : ∀ w ∈ B.parents v, w ∈ g.vars := fun w hw => (h3.vars w).2 (.inr hw)
        simp only [List.mem_filter, decide_eq_true_eq]
        constructor
        · rintro ⟨hw, ⟨_, h⟩ | h⟩
          · exact ⟨hw, fun hc => h ⟨hc, hw⟩⟩
          · exact ⟨hw, fun hc => h w ⟨hc, hw⟩ (hgv w hw)⟩
        · rintro ⟨hw, h⟩
          exact ⟨hw, .inl ⟨hgv w hw, fun hc => h hc.1⟩⟩
    · by_cases hne : ∃ w, w ∈ C
      · obtain ⟨w, hw⟩ := hne
        obtain ⟨f, g, _⟩ := hr.table w (hCB w hw)
        exact ⟨f, g, g, fun h => absurd h hv⟩
      · obtain ⟨t, ht⟩ := List.exists_mem_of_ne_nil _ hT0
        exact absurd ⟨t, hs.target t ht⟩ hne
  choose Ff Fg Fr hF using hfac
  have hEdgeC : ∀ v ∈ C, ∀ p ∈ B.parents v, m.graph.Edge p v := fun v hv p hp =>
    (hr.parents v (hCB v hv) p).1 hp
  -- the pruned model
  have hnewF : ((m.factors.filter fun p => p.1 ∉ irr).mapM fun p =>
      match p.2 with
      | none => (.error .attributeError : Py (V × Option (Factor I)))
      | some f => do
        let r ← VEFactor.restrict f (ev.filter fun q => q.1 ∈ FactorLike.rightVars f)
        return (p.1, some r)) =
      .ok (((m.factors.filter fun p => p.1 ∉ irr).map fun p => (p.1, Fr p.1)).map fun p => (p.1, some p.2)) := by
    rw [List.map_map]
    refine mapM_ok ?_
    rintro ⟨v, o⟩ hp
    obtain ⟨hp1, hp2⟩ := List.mem_filter.1 hp
    have hvC : v ∈ C := (mC v).2 ⟨by rw [← hr.keys]; exact Dict.mem_keys_of_mem hp1, by simpa using hp2⟩
    obtain ⟨h1, _, _, h4, _⟩ := hF v hvC
    have hk : (Dict.keys m.factors).Nodup := by rw [hr.keys]; exact hr.wf.nodes
    rw [Dict.get?_of_mem hk hp1] at h1
    injection h1 with h1
    subst h1
    simp only [h4]
    rfl
  set newDag := (m.graph.removeOutgoing E).removeNodes irr with hnd
  have hndwf : newDag.WF := (hr.wf.removeOutgoing E).removeNodes _
  have hnda : newDag.Acyclic := (hr.acyclic hB).mono (by
    intro e he
    simp [hnd, DiGraph.removeNodes, DiGraph.removeOutgoing] at he
    exact he.1)
  have hndn : newDag.nodes = C := rfl
  have hkeys : Dict.keys ((m.factors.filter fun p => p.1 ∉ irr).map fun p => (p.1, Fr p.1)) = C := by
    have h1 := Dict.keys_filter_key m.factors (fun v => v ∉ irr)
    rw [hr.keys] at h1
    rw [← hC] at h1
    rw [← h1]
    simp [Dict.keys, List.map_map, Function.comp_def]
  have hmemF : ∀ p ∈ ((m.factors.filter fun p => p.1 ∉ irr).map fun p => (p.1, Fr p.1)), p.1 ∈ C ∧ p.2 = Fr p.1 := by
    intro p hp
    refine ⟨by rw [← hkeys]; exact Dict.mem_keys_of_mem hp, ?_⟩
    obtain ⟨q, _, rfl⟩ := List.mem_map.1 hp
    rfl
  obtain ⟨m', d1, d2, d3, d4, d5, d6⟩ := DagModel.ofDict_unchecked hndwf hnda
    ((m.factors.filter fun p => p.1 ∉ irr).map fun p => (p.1, Fr p.1)) (by rw [hkeys, hndn]) (by
      intro p hp
      obtain ⟨h1, h2⟩ := hmemF p hp
      rw [h2]
      exact ((hF p.1 h1).2.2.2.2.2.1 p.1).2 (.inl rfl))
  have hmin : minimalize m T ev = .ok m' := by
    rw [minimalize]
    simp only [← hE, ← hirr, ← hnd]
    exact (congrArg (fun x => x >>= fun nf => DagModel.ofDict newDag nf false) hnewF).trans d1
  have hget : ∀ v ∈ C, Dict.get? m'.factors v = some (some (Fr v)) := by
    intro v hv
    rw [← hkeys] at hv
    obtain ⟨f, hf⟩ := Dict.mem_keys.1 hv
    have := d5 _ hf
    rw [(hmemF _ hf).2] at this
    exact this
  have hfs : m'.factors.mapM slotFactor = .ok (C.map Fr) := by
    have : C.map Fr = m'.factors.map fun p => Fr p.1 := by
      rw [← hndn, ← d3, Dict.keys, List.map_map]; rfl
    rw [this]
    refine mapM_ok ?_
    rintro ⟨v, o⟩ hp
    have hv : v ∈ C := by rw [← hndn, ← d3]; exact Dict.mem_keys_of_mem hp
    have hk : (Dict.keys m'.factors).Nodup := by rw [d3]; exact hndwf.nodes
    have := hget v hv
    rw [Dict.get?_of_mem hk hp] at this
    injection this with this
    subst this
    rfl
  -- what is eliminated
  set rm := (ch.setOrd ((C.map Fr).flatMap Factor.vars)).filter (fun v => v ∉ T ∧ v ∉ E) with hrm
  have closed : ∀ v ∈ C, ∀ p ∈ (B.parents v).filter (· ∉ E), p ∈ C := by
    intro v hv p hp
    obtain ⟨h1, h2⟩ := List.mem_filter.1 hp
    exact hs.keep v hv p (hEdgeC v hv p h1) (by simpa using h2)
  have mvars : ∀ v, v ∈ (C.map Fr).flatMap Factor.vars ↔ v ∈ C := by
    intro v
    rw [List.mem_flatMap]
    constructor
    · rintro ⟨f, hf, hv⟩
      obtain ⟨u, hu, rfl⟩ := List.mem_map.1 hf
      rcases ((hF u hu).2.2.2.2.2.1 v).1 hv with rfl | h
      · exact hu
      · exact closed u hu v h
    · intro hv
      exact ⟨Fr v, List.mem_map_of_mem hv, ((hF v hv).2.2.2.2.2.1 v).2 (.inl rfl)⟩
  have mrm : ∀ v, v ∈ rm ↔ v ∈ C ∧ v ∉ T ∧ v ∉ E := by
    intro v
    rw [hrm, List.mem_filter, (hch.setOrd _).2, mvars]
    simp
  have rmnd : rm.Nodup := (hch.setOrd _).1.filter _
  have hdk : (Dict.keys m'.domains).Nodup := by rw [d4]; exact hndwf.nodes
  obtain ⟨sizes, s1, s2⟩ := DagModel.varsizes_ok hdk (fun v hv => d6 v (d4 ▸ hv))
  obtain ⟨order, o1, o2⟩ := hch.heur m'.graph rm sizes (d2 ▸ hndwf) (d2 ▸ hnda) rmnd
    (fun v hv => by rw [d2, hndn]; exact ((mrm v).1 hv).1)
    (fun v hv => by rw [s2, d4, List.mem_filter]; exact ⟨d2 ▸ hv, by simpa using hv⟩)
  have mord : ∀ v, v ∈ order ↔ v ∈ C ∧ v ∉ T ∧ v ∉ E := fun v => o2.mem_iff.trans (mrm v)
  have ordnd : order.Nodup := o2.nodup_iff.2 rmnd
  obtain ⟨t0, ht0⟩ := List.exists_mem_of_ne_nil _ hT0
  obtain ⟨fs, joint, j1, j2, j3, j4, j5⟩ := Elim.eliminate_combine hI (evTab_tables hB hn ev hCn hCB) Fr
    (fun v hv => (hF v hv).2.2.2.2.1) (fun v hv => (hF v hv).2.2.2.2.2.1) (fun v hv => (hF v hv).2.2.2.2.2.2.1)
    closed order (fun x hx => ((mord x).1 hx).1) ordnd
    ⟨t0, hs.target t0 ht0, fun h => ((mord t0).1 h).2.1 ht0⟩
  have jv : ∀ v, v ∈ joint.vars ↔ v ∈ C ∧ (v ∈ T ∨ v ∈ E) := by
    intro v; rw [j4, mord]; tauto
  obtain ⟨jr, k1, k2, k3, k4⟩ := j3.restrict hI (obs := ev) (fun v _ s h => he.states v s h)
  have jrv : ∀ v, v ∈ jr.vars ↔ v ∈ T := by
    intro v
    rw [k3, jv]
    constructor
    · rintro ⟨⟨_, h | h⟩, h'⟩
      · exact h
      · exact absurd h h'
    · intro h; exact ⟨⟨hs.target v h, .inl h⟩, hdis v h⟩
  have jrl : ∀ v, v ∈ jr.leftVars ↔ v ∈ T := by
    intro v
    rw [k4, j5, mord]
    constructor
    · rintro ⟨⟨h1, h2⟩, h3⟩
      by_contra hc
      exact h2 ⟨h1, hc, h3⟩
    · intro h; exact ⟨⟨hs.target v h, fun hc => hc.2.1 h⟩, hdis v h⟩
  obtain ⟨mg, g1, g2, g3, g4, _⟩ := k2.marginalize hI (xs := T) (fun x hx => (jrv x).2 hx) hTn
  have mgd : mg.dom = [] := by
    have : ∀ v, v ∉ Dict.keys mg.dom := fun v hv => by
      obtain ⟨h1, h2⟩ := (g4 v).1 hv
      exact h2 ((jrv v).1 h1)
    cases hd : mg.dom with
    | nil => rfl
    | cons p d => exact absurd (by rw [hd]; simp) (this p.1)
  obtain ⟨r, q1, q2, q3, q4, q5⟩ := Factor.divideG_ok hI
    (fun x y => I.divWrap Fl.nanToNum (x / y)) k2.wf g2.wf (k2.compat g2)
  have hrd : r.dom = jr.dom := by rw [q3, mgd]; simp [domUnion]
  refine ⟨m', r, hmin, ⟨d2 ▸ hndwf, by rw [d2, hndn]; rfl, ?_, by rw [d3, d2], ?_⟩, ?_, q2, ?_, ?_, ?_, ?_⟩
  · intro v hv p
    have hvC : v ∈ C := hv
    have he1 : (p, v) ∈ newDag.edges ↔ (p, v) ∈ m.graph.edges ∧ p ∉ E ∧ p ∉ irr ∧ v ∉ irr := by
      simp only [hnd, DiGraph.removeNodes, DiGraph.removeOutgoing, List.mem_filter, decide_eq_true_eq]
      tauto
    rw [d2, he1]
    refine (mem_filter_not (B.parents v) E p).trans ?_
    constructor
    · rintro ⟨h1, h2⟩
      have hpC := closed v hvC p (List.mem_filter.2 ⟨h1, by simpa using h2⟩)
      exact ⟨hEdgeC v hvC p h1, h2, ((mC p).1 hpC).2, ((mC v).1 hvC).2⟩
    · rintro ⟨h1, h2, _, _⟩
      exact ⟨(hr.parents v (hCB v hvC) p).2 h1, h2⟩
  · intro v hv
    have hvC : v ∈ C := hv
    obtain ⟨_, _, _, _, f5, f6, f7, f8⟩ := hF v hvC
    refine ⟨Fr v, Fr v, hget v hvC, rfl, f5.wf, f7, f8, f6, f5.dom, ?_⟩
    intro obs ho
    rw [f5.getValue hI ho]
    congr 2
    refine hB.ctab_eq (hCB v hvC) fun w hw => ?_
    by_cases hk : w ∈ Dict.keys (ev.filter fun q => q.1 ∈ B.parents v)
    · obtain ⟨s, hs⟩ := Option.isSome_iff_exists.1 (Dict.get?_isSome.2 hk)
      rw [over_of_get? hs]
      rw [Dict.get?_filter_key ev (fun v' => v' ∈ B.parents v)] at hs
      split at hs
      · exact he.states w s hs
      · cases hs
    · rw [over_of_not_mem hk]
      refine Factor.states_of_inDom f5.dom ho.inDom w ((f6 w).2 ?_)
      rcases List.mem_cons.1 hw with rfl | hw
      · exact .inl rfl
      · refine .inr ((mem_filter_not _ _ _).2 ⟨hw, fun hc => hk ?_⟩)
        rw [keys_evFilter]
        exact List.mem_filter.2 ⟨hc, by simpa using hw⟩
  · rw [veRun]
    simp only [hfs]
    have hne : (C.map Fr).isEmpty = false := by
      rw [List.isEmpty_eq_false_iff]
      exact List.ne_nil_of_mem (List.mem_map_of_mem (hs.target t0 ht0))
    simp only [py_ok_bind, hne, Bool.false_eq_true, if_false, s1, ← hE, ← hrm, o1, j1, j2, k1, g1]
    exact q1
  · rw [hrd]; exact k2.dom
  · intro v; rw [Factor.vars, hrd]; exact jrv v
  · intro v
    rw [Factor.leftVars, List.mem_filter, q4]
    simp only [List.mem_filter, decide_eq_true_eq]
    have h1 : v ∈ r.vars ↔ v ∈ T := by rw [Factor.vars, hrd]; exact jrv v
    have h2 : v ∉ mg.vars := by rw [Factor.vars, mgd]; simp
    rw [h1]
    constructor
    · exact fun h => h.1
    · intro h
      refine ⟨h, fun hc => ?_⟩
      rcases hc.2 with h3 | h3
      · have := (jrl v).2 h
        exact ((Factor.mem_leftVars hI).1 this).2 h3
      · exact h2 h3
  · intro a ha
    have hain : ∀ v ∈ jr.vars, a v ∈ B.states v := fun v hv => ha v ((jrv v).1 hv)
    rw [q5 a (by rw [hrd]; exact Factor.inDom_of_states k2.dom hain), k2.sem a hain,
      g2.sem a (fun v hv => by rw [Factor.vars, mgd] at hv; simp at hv)]
    have hTE : ∀ x ∈ T, x ∉ Dict.keys ev := hdis
    have hOE : ∀ x ∈ order, x ∉ Dict.keys ev := fun x hx => ((mord x).1 hx).2.2
    congr 3
    · rw [sum_evTab ev C ordnd hOE]
      refine sumOver_perm ?_ ordnd _ _
      show order.Perm (C.filter _)
      rw [List.perm_ext_iff_of_nodup ordnd (List.Nodup.filter _ hCn)]
      intro v
      refine (mord v).trans ((mem_filter_not C _ v).trans ?_).symm
      rw [List.mem_append, not_or]
    · rw [sumOver_over hTE (sumOver B.states order (prodT (evTab B ev) C)), ← sumOver_append]
      have hnd2 : (T ++ order).Nodup := List.nodup_append'.2 ⟨hTn, ordnd, fun v h1 h2 => ((mord v).1 h2).2.1 h1⟩
      rw [sum_evTab ev C hnd2 (by
        intro x hx
        rcases List.mem_append.1 hx with h | h
        · exact hTE x h
        · exact hOE x h)]
      refine sumOver_perm ?_ hnd2 _ _
      show (T ++ order).Perm (C.filter _)
      rw [List.perm_ext_iff_of_nodup hnd2 (List.Nodup.filter _ hCn)]
      intro v
      refine Iff.trans ?_ (mem_filter_not C _ v).symm
      rw [List.mem_append, mord]
      constructor
      · rintro (h | h)
        · exact ⟨hs.target v h, hdis v h⟩
        · exact ⟨h.1, h.2.2⟩
      · rintro ⟨h1, h2⟩
        by_cases h3 : v ∈ T
        · exact .inl h3
        · exact .inr ⟨h1, h3, h2⟩

/-- The pruned network is a network. -/
theorem pruned_valid {m : DagModel F V S} {B : BN V S K} (hr : Represents m B) (hB : B.Valid) (hn : B.Normalised)
    {T : List V} (hT : ∀ t ∈ T, t ∈ B.nodes) {ev : Obs V S} (he : EvOk B ev) :
    (prunedBN B m.graph T ev).Valid ∧ (prunedBN B m.graph T ev).Normalised := by
  have hTg : ∀ t ∈ T, t ∈ m.graph.nodes := fun t ht => hr.nodes ▸ hT t ht
  obtain ⟨M, P, hs⟩ := irrelevant_spec hr.wf (hr.acyclic hB) (E := Dict.keys ev) hTg
  have hCB : ∀ v ∈ kept m.graph T ev, v ∈ B.nodes := fun v hv => hr.nodes ▸ (List.mem_filter.1 hv).1
  have hirr : ∀ v ∈ B.nodes, v ∉ B.parents v := fun v hv => (hB.tables hn).irrefl hv
  have hov : ∀ v w (a : V → S), (w ∈ Dict.keys ev ∧ w ∈ B.parents v → a w ∈ B.states w ∨ True) →
      w ∈ Dict.keys (ev.filter fun q => q.1 ∈ B.parents v) →
      over (ev.filter fun q => q.1 ∈ B.parents v) a w ∈ B.states w := by
    intro v w a _ hk
    obtain ⟨s, hs⟩ := Option.isSome_iff_exists.1 (Dict.get?_isSome.2 hk)
    rw [over_of_get? hs]
    rw [Dict.get?_filter_key ev (fun v' => v' ∈ B.parents v)] at hs
    split at hs
    · exact he.states w s hs
    · cases hs
  refine ⟨⟨hr.wf.nodes.filter _, ?_, ?_, fun v hv => hB.nodupStates v (hCB v hv),
    fun v hv => hB.nonempty v (hCB v hv), ?_⟩, ?_⟩
  · intro v hv p hp
    obtain ⟨h1, h2⟩ := (mem_filter_not _ _ _).1 hp
    exact hs.keep v hv p ((hr.parents v (hCB v hv) p).1 h1) h2
  · intro v hv
    refine hB.acyclic v (Relation.TransGen.mono (fun a b hab => ?_) _ _ hv)
    exact ⟨hCB b hab.1, ((mem_filter_not _ _ _).1 hab.2).1⟩
  · intro v hv a b hab
    refine hB.scope v (hCB v hv) _ _ fun w hw => ?_
    by_cases hk : w ∈ Dict.keys (ev.filter fun q => q.1 ∈ B.parents v)
    · obtain ⟨s, hs⟩ := Option.isSome_iff_exists.1 (Dict.get?_isSome.2 hk)
      rw [over_of_get? hs, over_of_get? hs]
    · rw [over_of_not_mem hk, over_of_not_mem hk]
      refine hab w ?_
      rcases List.mem_cons.1 hw with rfl | hw
      · exact List.mem_cons_self
      · refine List.mem_cons_of_mem _ ((mem_filter_not _ _ _).2 ⟨hw, fun hc => hk ?_⟩)
        rw [keys_evFilter]
        exact List.mem_filter.2 ⟨hc, by simpa using hw⟩
  · intro v hv a ha
    have hvn := hCB v hv
    have hvk : v ∉ Dict.keys (ev.filter fun q => q.1 ∈ B.parents v) := by
      rw [keys_evFilter]
      intro hc
      exact hirr v hvn (by simpa using (List.mem_filter.1 hc).2)
    rw [← (hB.tables hn).norm v hvn (over (ev.filter fun q => q.1 ∈ B.parents v) a)]
    congr 1
    refine List.map_congr_left fun s hs' => ?_
    show B.table v (over _ (upd a v s)) = _
    rw [over_upd_comm hvk]
    refine (hB.ctab_eq hvn fun w hw => ?_).symm
    by_cases hwv : w = v
    · subst hwv; rw [upd_same]; exact hs'
    · rw [upd_ne _ _ hwv]
      by_cases hk : w ∈ Dict.keys (ev.filter fun q => q.1 ∈ B.parents v)
      · exact hov v w a (fun _ => .inr trivial) hk
      · rw [over_of_not_mem hk]
        refine ha w ?_
        rcases List.mem_cons.1 hw with rfl | hw
        · exact absurd rfl hwv
        · refine hs.keep v hv w ((hr.parents v hvn w).1 hw) fun hc => hk ?_
          rw [keys_evFilter]
          exact List.mem_filter.2 ⟨hc, by simpa using hw⟩

/-- Its marginals are the sums that the algorithm computes. -/
theorem pruned_marg {m : DagModel F V S} {B : BN V S K} (hr : Represents m B) (hB : B.Valid) {T W : List V}
    {ev : Obs V S} (he : EvOk B ev) {a : V → S} (ha : ∀ t ∈ W, a t ∈ B.states t)
    (hc : ∀ v ∈ kept m.graph T ev, ∀ p ∈ B.parents v, p ∉ Dict.keys ev → p ∈ kept m.graph T ev) :
    (prunedBN B m.graph T ev).marg (W ++ Dict.keys ev) (over ev a) =
      sumOver B.states ((kept m.graph T ev).filter (· ∉ W ++ Dict.keys ev)) (prodT B.ctab (kept m.graph T ev))
        (over ev a) := by
  have hCB : ∀ v ∈ kept m.graph T ev, v ∈ B.nodes := fun v hv => hr.nodes ▸ (List.mem_filter.1 hv).1
  refine sumOver_congr ((hr.wf.nodes.filter _).filter _) fun b hb1 hb2 => ?_
  have hbe : ∀ w s, Dict.get? ev w = some s → b w = s := by
    intro w s hw
    have hk : w ∈ Dict.keys ev := Dict.get?_isSome.1 (by rw [hw]; rfl)
    rw [hb1 w (by simp [hk]), over_of_get? hw]
  have hst : ∀ w, w ∈ kept m.graph T ev ∨ w ∈ Dict.keys ev → b w ∈ B.states w := by
    intro w hw
    by_cases hk : w ∈ Dict.keys ev
    · obtain ⟨s, hs⟩ := Option.isSome_iff_exists.1 (Dict.get?_isSome.2 hk)
      rw [hbe w s hs]; exact he.states w s hs
    · have hw : w ∈ kept m.graph T ev := hw.resolve_right hk
      by_cases hwW : w ∈ W
      · rw [hb1 w (by simp [hwW]), over_of_not_mem hk]; exact ha w hwW
      · exact hb2 w ((mem_filter_not _ _ _).2 ⟨hw, by simp [hwW, hk]⟩)
  refine prodT_congr fun v hv => ?_
  have h1 : over (ev.filter fun q => q.1 ∈ B.parents v) b = b := by
    funext w
    rw [over, Dict.get?_filter_key ev (fun v' => v' ∈ B.parents v)]
    split
    · cases h : Dict.get? ev w with
      | none => rfl
      | some s => exact (hbe w s h).symm
    · rfl
  show B.table v (over _ b) = _
  rw [h1]
  refine (hB.ctab_eq (hCB v hv) fun w hw => hst w ?_).symm
  rcases List.mem_cons.1 hw with rfl | hw
  · exact .inl hv
  · by_cases hk : w ∈ Dict.keys ev
    · exact .inr hk
    · exact .inl (hc v hv w hw hk)

end Verif
