import Verif.Model.Components
import Verif.Net.DSep
import Verif.Model.SamplingLemmas
import Verif.Inference.QueryLemmas
import Verif.Net.CfProb
import Verif.Net.Solution

/-!
# The endogenous distribution factorises over the decomposition graph: helper lemmas
-/

set_option linter.unusedSectionVars false
set_option linter.unusedSimpArgs false

namespace Verif
open Relation

variable {V S : Type} [DecidableEq V] [DecidableEq S]

/-- An acyclic graph has a topological order. -/
theorem DiGraph.Acyclic.exists_topo {g : DiGraph V} (hg : g.WF) (ha : g.Acyclic) : ∃ o, TopoOrder g o := by
  obtain ⟨r, hr⟩ := ha.exists_rank hg
  let le : V → V → Bool := fun x y => decide (r x ≤ r y)
  have hs : (g.nodes.mergeSort le).Pairwise fun x y => le x y = true :=
    List.pairwise_mergeSort (fun a b c h1 h2 => by
      simp only [le, decide_eq_true_eq] at *; omega) (fun a b => by
      simp only [le, Bool.or_eq_true, decide_eq_true_eq]; omega) _
  refine ⟨g.nodes.mergeSort le, List.mergeSort_perm _ _, fun pre v post e p hp => ?_⟩
  have hmem : p ∈ g.nodes.mergeSort le := (List.mergeSort_perm _ _).mem_iff.2 (hg.ends _ hp).1
  have hlt := hr p v hp
  rw [e] at hmem hs
  rcases List.mem_append.1 hmem with h | h
  · exact h
  · exfalso
    rcases List.mem_cons.1 h with rfl | h
    · omega
    · have := (List.pairwise_cons.1 (List.pairwise_append.1 hs).2.1).1 p h
      simp only [le, decide_eq_true_eq] at this
      omega

/-- A prefix of a topological order is closed under predecessors. -/
theorem TopoOrder.pred_mem {g : DiGraph V} {o : List V} (ho : TopoOrder g o) {pre post : List V} (e : o = pre ++ post) {p w : V}
    (hw : w ∈ pre) (hp : (p, w) ∈ g.edges) : p ∈ pre := by
  obtain ⟨p1, p2, rfl⟩ := List.append_of_mem hw
  exact List.mem_append_left _ (ho.sorted p1 w (p2 ++ post) (by rw [e]; simp) p hp)

/-- … and under ancestors. -/
theorem TopoOrder.anc_mem {g : DiGraph V} {o : List V} (ho : TopoOrder g o) {pre post : List V} (e : o = pre ++ post) {p w : V}
    (hw : w ∈ pre) (hp : ReflTransGen g.Edge p w) : p ∈ pre := by
  induction hp using ReflTransGen.head_induction_on with
  | refl => exact hw
  | head h _ ih => exact ho.pred_mem e ih h

/-- The setting: a topological order of the endogenous graph, an order of the decomposition graph, and every endogenous variable
has an exogenous parent. -/
structure TianOk (g : DiGraph V) (endo order o : List V) : Prop where
  wf : g.WF
  topo : TopoOrder (g.endoGraph endo) order
  qtopo : TopoOrder (g.qgraph endo order) o
  root : ∀ e ∈ g.edges, e.1 ∈ endo → e.2 ∈ endo
  exo : ∀ v ∈ g.nodes, v ∈ endo → ∃ u, u ∉ endo ∧ (u, v) ∈ g.edges

namespace TianOk
variable {g : DiGraph V} {endo order o : List V}

theorem mem_endo {v : V} : v ∈ (g.endoGraph endo).nodes ↔ v ∈ g.nodes ∧ v ∈ endo := by
  simp [DiGraph.endoGraph, DiGraph.subgraph]

theorem edge_endo {p v : V} : (p, v) ∈ (g.endoGraph endo).edges ↔ (p, v) ∈ g.edges ∧ p ∈ endo ∧ v ∈ endo := by
  simp [DiGraph.endoGraph, DiGraph.subgraph]

theorem q_of_endo (h : TianOk g endo order o) {p v : V} (he : (p, v) ∈ (g.endoGraph endo).edges) : (p, v) ∈ (g.qgraph endo order).edges :=
  ((DiGraph.foldl_qgraph h.wf endo order).2.2 _).2 (.inl he)

theorem nodup (h : TianOk g endo order o) : o.Nodup := h.qtopo.perm.nodup_iff.2 (DiGraph.foldl_qgraph h.wf endo order).1.nodes

/-- The members of the component of `x` that come before `x`, and the outer parents of the component that come before `x`, are
parents of `x` in the decomposition graph. -/
theorem parent (h : TianOk g endo order o) {x : V} {pre post : List V} (e : o = pre ++ x :: post) (hx : x ∈ g.nodes ∧ x ∈ endo) {p w : V}
    (hp : p ∈ pre) (hpe : p ∈ g.nodes ∧ p ∈ endo) (hw : ReflTransGen (g.exoGraph endo).UEdge x w) (hwe : w ∈ g.nodes ∧ w ∈ endo)
    (hpw : p = w ∨ (p, w) ∈ g.edges) : p ∈ (g.qgraph endo order).pred x := by
  have hX := DiGraph.exoGraph_wf g endo
  have hs := DiGraph.components_spec hX
  obtain ⟨u, hu, hux⟩ := h.exo x hx.1 hx.2
  have hxn : x ∈ (g.exoGraph endo).nodes := DiGraph.exoGraph_nodes.2 ⟨(u, x), hux, hu, .inr rfl⟩
  obtain ⟨d, hd, hxd⟩ := hs.cover x hxn
  obtain ⟨z, hz, rfl⟩ := hs.comp d hd
  have mem : ∀ y, y ∈ endo → ReflTransGen (g.exoGraph endo).UEdge x y → y ∈ ((g.exoGraph endo).component z).filter (· ∈ endo) := by
    intro y hy hr
    exact List.mem_filter.2 ⟨(DiGraph.mem_component hX hz).2 (((DiGraph.mem_component hX hz).1 hxd).trans hr), by simpa using hy⟩
  set c := ((g.exoGraph endo).component z).filter (· ∈ endo) with hc
  have hcm : c ∈ g.endoCComponents endo := List.mem_map_of_mem hd
  have hord : ∀ y, y ∈ g.nodes ∧ y ∈ endo → y ∈ order := fun y hy => h.topo.perm.mem_iff.2 (mem_endo.2 hy)
  have hxc : x ∈ order.filter (· ∈ c) := List.mem_filter.2 ⟨hord x hx, by simpa using mem x hx.2 .refl⟩
  obtain ⟨l, r, hlr⟩ := List.append_of_mem hxc
  have hnx : x ∉ pre := by
    have := h.nodup
    rw [e] at this
    exact fun hh => (List.nodup_append'.1 this).2.2 hh List.mem_cons_self
  have hpx : p ≠ x := fun hh => hnx (hh ▸ hp)
  have hwE : (g.endoGraph endo).WF := h.wf.subgraph endo
  have hdesc : p ∉ ((g.endoGraph endo).reach x).erase x := by
    rw [List.mem_erase_of_ne hpx, DiGraph.mem_reach hwE (mem_endo.2 hx)]
    intro hr
    have : ReflTransGen (g.qgraph endo order).Edge x p := ReflTransGen.mono (fun a b hab => h.q_of_endo hab) _ _ hr
    exact hnx (h.qtopo.anc_mem e hp this)
  have edge : ∀ y a b, order.filter (· ∈ c) = a ++ y :: b → ∀ t, (t ∈ g.outerParents endo (order.filter (· ∈ c)) ∨ t ∈ a) →
      t ∉ ((g.endoGraph endo).reach y).erase y → (t, y) ∈ (g.qgraph endo order).edges := by
    intro y a b hab t ht htd
    refine ((DiGraph.foldl_qgraph h.wf endo order).2.2 _).2 (.inr ?_)
    exact List.mem_flatMap.2 ⟨c, hcm, DiGraph.mem_compEdges.2 ⟨a, b, hab, ht, htd⟩⟩
  rw [DiGraph.mem_pred]
  by_cases hpc : p ∈ c
  · have hpf : p ∈ order.filter (· ∈ c) := List.mem_filter.2 ⟨hord p hpe, by simpa using hpc⟩
    rw [hlr] at hpf
    rcases List.mem_append.1 hpf with hpl | hpr
    · exact edge x l r hlr p (.inr hpl) hdesc
    · exfalso
      obtain ⟨r1, r2, rfl⟩ := List.append_of_mem ((List.mem_cons.1 hpr).resolve_left hpx)
      refine hnx (h.qtopo.pred_mem (pre := pre) e hp ?_)
      refine edge p (l ++ x :: r1) r2 (by rw [hlr]; simp) x (.inr (by simp)) ?_
      rw [List.mem_erase_of_ne (Ne.symm hpx), DiGraph.mem_reach hwE (mem_endo.2 hpe)]
      intro hr
      have hon : order.Nodup := h.topo.perm.nodup_iff.2 hwE.nodes
      rw [show l ++ x :: (r1 ++ p :: r2) = (l ++ x :: r1) ++ (p :: r2) by simp] at hlr
      obtain ⟨l1, l2, hl, h1, h2⟩ := List.filter_eq_append_iff.1 hlr
      have hx1 : x ∈ l1 := (List.mem_filter.1 (show x ∈ l1.filter (· ∈ c) by rw [h1]; simp)).1
      have hp2 : p ∈ l2 := (List.mem_filter.1 (show p ∈ l2.filter (· ∈ c) by rw [h2]; simp)).1
      rw [hl] at hon
      exact (List.nodup_append'.1 hon).2.2 (h.topo.anc_mem hl hx1 hr) hp2
  · have hpw' : (p, w) ∈ g.edges := by
      rcases hpw with rfl | hpw
      · exact absurd (mem p hpe.2 hw) hpc
      · exact hpw
    refine edge x l r hlr p (.inl ?_) hdesc
    refine DiGraph.mem_outerParents.2 ⟨fun hh => hpc (by simpa using (List.mem_filter.1 hh).2), hpe.2, w, ?_, hpw'⟩
    exact List.mem_filter.2 ⟨hord w hwe, by simpa using mem w hwe.2 hw⟩

/-- The nodes of the order are the endogenous nodes. -/
theorem mem_nodes' (h : TianOk g endo order o) {y : V} (hy : y ∈ o) : y ∈ g.nodes ∧ y ∈ endo := by
  have hq := DiGraph.foldl_qgraph h.wf endo order
  rcases (hq.2.1 y).1 (h.qtopo.perm.mem_iff.1 hy) with hh | ⟨⟨p, w⟩, he, hv⟩
  · exact mem_endo.1 hh
  · obtain ⟨c, _, hc⟩ := List.mem_flatMap.1 he
    obtain ⟨a, b, h4, h5, _⟩ := DiGraph.mem_compEdges.1 hc
    have hsub : ∀ w ∈ order.filter (· ∈ c), w ∈ g.nodes ∧ w ∈ endo := fun w hw =>
      mem_endo.1 (h.topo.perm.mem_iff.1 (List.mem_filter.1 hw).1)
    rcases hv with rfl | rfl
    · rcases h5 with h5 | h5
      · obtain ⟨_, h6, w, _, h7⟩ := DiGraph.mem_outerParents.1 h5
        exact ⟨(h.wf.ends _ h7).1, h6⟩
      · exact hsub _ (by rw [h4]; simp [h5])
    · exact hsub _ (by rw [h4]; simp)

theorem mem_nodes (h : TianOk g endo order o) {y : V} (hy : y ∈ o) : y ∈ g.nodes := (h.mem_nodes' hy).1

theorem mem_iff (h : TianOk g endo order o) {y : V} : y ∈ o ↔ y ∈ g.nodes ∧ y ∈ endo :=
  ⟨h.mem_nodes', fun hy => h.qtopo.perm.mem_iff.2 (((DiGraph.foldl_qgraph h.wf endo order).2.1 y).2 (.inl (mem_endo.2 hy)))⟩

/-- Given its parents in the decomposition graph, a variable is separated from the ones before it. -/
theorem separated (h : TianOk g endo order o) (ha : g.Acyclic) {x : V} {pre post : List V} (e : o = pre ++ x :: post) :
    g.dSeparated [x] (pre.filter (· ∉ (g.qgraph endo order).pred x)) ((g.qgraph endo order).pred x) = true := by
  set Z := (g.qgraph endo order).pred x with hZ
  have hq := DiGraph.foldl_qgraph h.wf endo order
  have ho : ∀ y ∈ o, y ∈ g.nodes ∧ y ∈ endo := fun y => h.mem_nodes'
  have hx : x ∈ g.nodes ∧ x ∈ endo := ho x (by rw [e]; simp)
  have hpre : ∀ y ∈ pre, y ∈ g.nodes ∧ y ∈ endo := fun y hy => ho y (by rw [e]; simp [hy])
  have hZpre : ∀ z ∈ Z, z ∈ pre := fun z hz => h.qtopo.sorted pre x post e z (DiGraph.mem_pred.1 hz)
  have e' : o = (pre ++ [x]) ++ post := by rw [e]; simp
  -- what is needed for the query does not come after `x`
  have need : ∀ w, w ∈ endo → g.Needed ([x] ++ pre.filter (· ∉ Z) ++ Z) w → w ∈ pre ++ [x] := by
    rintro w hw ⟨s, hs, hr⟩
    have hsp : s ∈ pre ++ [x] := by
      simp only [List.mem_append, List.mem_singleton, List.mem_filter] at hs ⊢
      rcases hs with (hs | hs) | hs
      · exact .inr hs
      · exact .inl hs.1
      · exact .inl (hZpre s hs)
    refine h.qtopo.anc_mem e' hsp ?_
    have : ∀ y, ReflTransGen g.Edge w y → y ∈ endo ∧ ReflTransGen (g.qgraph endo order).Edge w y := by
      intro y hy
      induction hy with
      | refl => exact ⟨hw, .refl⟩
      | @tail b c _ hbc ih =>
        have hc := h.root _ hbc ih.1
        exact ⟨hc, ih.2.tail (h.q_of_endo (edge_endo.2 ⟨hbc, ih.1, hc⟩))⟩
    exact (this s hr).2
  rw [dSeparated_iff h.wf ha (by simpa using hx.1)]
  intro t ht y hy hr
  rw [List.mem_singleton.1 ht] at hr
  obtain ⟨hyp, hyZ⟩ := List.mem_filter.1 hy
  simp only [decide_eq_true_eq] at hyZ
  have inv : ∀ w, ReflTransGen (fun u w => (g.Edge u w ∧ u ∉ Z ∧ g.Needed ([x] ++ pre.filter (· ∉ Z) ++ Z) w) ∨
        (g.Edge w u ∧ w ∉ Z ∧ g.Needed ([x] ++ pre.filter (· ∉ Z) ++ Z) u)) x w →
      ReflTransGen (g.exoGraph endo).UEdge x w ∧ (w ∈ endo → w ∈ pre ++ [x]) := by
    intro w hw
    induction hw with
    | refl => exact ⟨.refl, fun _ => by simp⟩
    | @tail u w _ huw ih =>
      rcases huw with ⟨he, huZ, hn⟩ | ⟨he, hwZ, hn⟩
      · refine ⟨?_, fun hwe => need w hwe hn⟩
        by_cases hue : u ∈ endo
        · exfalso
          have hwe := h.root _ he hue
          rcases List.mem_append.1 (ih.2 hue) with hup | hux
          · exact huZ (h.parent e hx hup ⟨(hpre u hup).1, hue⟩ ih.1 ⟨(hpre u hup).1, hue⟩ (.inl rfl))
          · rw [List.mem_singleton.1 hux] at he
            have hxw : (x, w) ∈ (g.qgraph endo order).edges := h.q_of_endo (edge_endo.2 ⟨he, hx.2, hwe⟩)
            have hnd := h.nodup
            rw [e] at hnd
            have hxp : x ∉ pre := fun hh => (List.nodup_append'.1 hnd).2.2 hh List.mem_cons_self
            rcases List.mem_append.1 (need w hwe hn) with hwp | hwx
            · exact hxp (h.qtopo.pred_mem e hwp hxw)
            · rw [List.mem_singleton.1 hwx] at hxw
              exact hxp (h.qtopo.sorted pre x post e x hxw)
        · exact ih.1.tail (.inl (DiGraph.exoGraph_edges.2 ⟨he, hue⟩))
      · by_cases hwe : w ∈ endo
        · exfalso
          have hue := h.root _ he hwe
          have hup := ih.2 hue
          have hwp : w ∈ pre := by
            have hwu : (w, u) ∈ (g.qgraph endo order).edges := h.q_of_endo (edge_endo.2 ⟨he, hwe, hue⟩)
            rcases List.mem_append.1 hup with hup | hux
            · exact h.qtopo.pred_mem e hup hwu
            · rw [List.mem_singleton.1 hux] at hwu
              exact h.qtopo.sorted pre x post e w hwu
          exact hwZ (h.parent e hx hwp ⟨(hpre w hwp).1, hwe⟩ ih.1 ⟨(h.wf.ends _ he).2, hue⟩ (.inr he))
        · exact ⟨ih.1.tail (.inr (DiGraph.exoGraph_edges.2 ⟨he, hwe⟩)), fun hh => absurd hh hwe⟩
  have hyI := (inv y hr).1
  exact hyZ (h.parent e hx hyp (hpre y hyp) hyI (hpre y hyp) (.inl rfl))

end TianOk

variable {K : Type} [Field K]

/-- A marginal depends on the set of variables. -/
theorem BN.marg_ext (B : BN V S K) {vs ws : List V} (h : ∀ v, v ∈ vs ↔ v ∈ ws) (a : V → S) : B.marg vs a = B.marg ws a := by
  rw [BN.marg, BN.marg]
  congr 1
  exact List.filter_congr fun v _ => by simp [h v]

/-- The distribution of the endogenous variables is the product of the conditional probabilities given the parents in the
decomposition graph. -/
theorem TianOk.marg_prefix [Inhabited S] [LinearOrder K] [IsStrictOrderedRing K] {g : DiGraph V} {endo order o : List V} (h : TianOk g endo order o)
    {B : BN V S K} (hB : B.Valid) (hn : B.Normalised)
    (hnn : B.NonNeg) (hgn : g.nodes = B.nodes) (hge : ∀ v ∈ B.nodes, ∀ p, p ∈ B.parents v ↔ (p, v) ∈ g.edges) {a : V → S}
    (ha : B.InStates a) (pre post : List V) (e : o = pre ++ post) :
    B.marg pre a = (pre.map fun v => B.marg (v :: (g.qgraph endo order).pred v) a / B.marg ((g.qgraph endo order).pred v) a).prod := by
  have hac : g.Acyclic := by
    intro u hu
    refine hB.acyclic u (Relation.TransGen.mono (fun x y hxy => ?_) _ _ hu)
    have hb : y ∈ B.nodes := hgn ▸ (h.wf.ends _ hxy).2
    exact ⟨hb, (hge y hb x).2 hxy⟩
  have hon : ∀ y ∈ o, y ∈ B.nodes := fun y hy => by
    rw [← hgn]
    exact h.mem_nodes hy
  induction pre using List.reverseRecOn generalizing post with
  | nil => rw [BN.marg_nil hB hn]; simp
  | append_singleton pre x ih =>
    have e1 : o = pre ++ x :: post := by rw [e]; simp
    set Z := (g.qgraph endo order).pred x with hZ
    have hZpre : ∀ z ∈ Z, z ∈ pre := fun z hz => h.qtopo.sorted pre x post e1 z (DiGraph.mem_pred.1 hz)
    have hpre : ∀ y ∈ pre, y ∈ B.nodes := fun y hy => hon y (by rw [e1]; simp [hy])
    have hx : x ∈ B.nodes := hon x (by rw [e1]; simp)
    have hnd := h.nodup
    rw [e1] at hnd
    have hxp : x ∉ pre := fun hh => (List.nodup_append'.1 hnd).2.2 hh List.mem_cons_self
    have hsep := dsep_margs hB hn h.wf hgn hge (T := [x]) (Y := pre.filter (· ∉ Z)) (Z := Z) (by simpa using hx)
      (fun v hv => hpre v (List.mem_filter.1 hv).1) (fun z hz => hpre z (hZpre z hz)) (h.separated hac e1) ha
    have hset : ∀ v, v ∈ pre.filter (· ∉ Z) ++ Z ↔ v ∈ pre := by
      intro v
      simp only [List.mem_append, List.mem_filter, decide_eq_true_eq]
      constructor
      · rintro (hv | hv)
        · exact hv.1
        · exact hZpre v hv
      · intro hv
        by_cases hz : v ∈ Z
        · exact .inr hz
        · exact .inl ⟨hv, hz⟩
    rw [B.marg_ext hset, B.marg_ext (vs := [x] ++ (pre.filter (· ∉ Z) ++ Z)) (ws := pre ++ [x]) (fun v => by
      rw [List.mem_append, hset, List.mem_append, or_comm])] at hsep
    rw [List.map_append, List.prod_append, ← ih (x :: post) e1]
    simp only [List.map_cons, List.map_nil, List.prod_cons, List.prod_nil, mul_one]
    by_cases hz : B.marg Z a = 0
    · rw [hz, div_zero, mul_zero]
      have h1 := BN.marg_zero hB hnn (T := (pre ++ [x]).filter (· ∉ Z)) (W := Z) (a := a) (fun t ht => by
        have := (List.mem_filter.1 ht).1
        exact hon t (by rw [e]; exact List.mem_append_left _ this)) (List.Nodup.filter _ (by
          have := h.nodup
          rw [e] at this
          exact (List.nodup_append'.1 this).1)) (fun t ht => by simpa using (List.mem_filter.1 ht).2) (fun v _ hv => ha v hv) hz
      rw [← h1]
      refine B.marg_ext (fun v => ?_) a
      simp only [List.mem_append, List.mem_filter, decide_eq_true_eq, List.mem_singleton]
      constructor
      · intro hv
        by_cases hvz : v ∈ Z
        · exact .inr hvz
        · exact .inl ⟨hv, hvz⟩
      · rintro (hv | hv)
        · exact hv.1
        · exact .inl (hZpre v hv)
    · have h2 : B.marg (pre ++ [x]) a = B.marg (x :: Z) a * B.marg pre a / B.marg Z a := by
        rw [eq_div_iff hz, hsep]; rfl
      rw [h2]
      ring

/-! ### Components -/

section Component
variable [Inhabited S] [LinearOrder K] [IsStrictOrderedRing K]

/-- `k` is a union of confounded components: an edge that leaves an exogenous variable stays on one side. -/
def Closed (g : DiGraph V) (endo : List V) (k : V → Bool) : Prop := ∀ e ∈ g.edges, e.1 ∉ endo → k e.1 = k e.2

/-- The sum over the exogenous variables of the product of their tables and those of `L` -/
def BN.exoSum (B : BN V S K) (U L : List V) (a : V → S) : K := sumOver B.states U (prodT B.ctab (U ++ L)) a

namespace TianOk
variable {g : DiGraph V} {endo order o : List V} {B : BN V S K} {a : V → S}

/-- The probability of the values of a prefix: the later variables are barren. -/
theorem marg_exoSum (h : TianOk g endo order o) (hB : B.Valid) (hn : B.Normalised) (hgn : g.nodes = B.nodes)
    (hge : ∀ v ∈ B.nodes, ∀ p, p ∈ B.parents v ↔ (p, v) ∈ g.edges) (ha : B.InStates a) (pre post : List V) (e : o = pre ++ post) :
    B.marg pre a = B.exoSum (B.nodes.filter (· ∉ endo)) pre a := by
  set U := B.nodes.filter (· ∉ endo) with hU
  have hnd := h.nodup
  rw [e] at hnd
  have ho : ∀ v, v ∈ o ↔ v ∈ B.nodes ∧ v ∈ endo := fun v => by rw [h.mem_iff, hgn]
  have hmU : ∀ v, v ∈ U ↔ v ∈ B.nodes ∧ v ∉ endo := fun v => by simp [hU]
  have hnd' := List.nodup_append'.1 hnd
  have hUn : U.Nodup := hB.nodes.filter _
  have hperm : B.nodes.Perm (post ++ (U ++ pre)) := by
    refine (List.perm_ext_iff_of_nodup hB.nodes ?_).2 fun v => ?_
    · rw [List.nodup_append', List.nodup_append']
      refine ⟨hnd'.2.1, ⟨hUn, hnd'.1, fun v hv hv' => ((hmU v).1 hv).2 ((ho v).1 (by rw [e]; simp [hv'])).2⟩, fun v hv hv' => ?_⟩
      rcases List.mem_append.1 hv' with hv' | hv'
      · exact ((hmU v).1 hv').2 ((ho v).1 (by rw [e]; simp [hv])).2
      · exact hnd'.2.2 hv' hv
    · have h1 := ho v
      rw [e, List.mem_append] at h1
      rw [List.mem_append, List.mem_append, hmU]
      constructor
      · intro hv
        by_cases hve : v ∈ endo
        · rcases h1.2 ⟨hv, hve⟩ with h2 | h2
          · exact .inr (.inr h2)
          · exact .inl h2
        · exact .inr (.inl ⟨hv, hve⟩)
      · rintro (h2 | h2 | h2)
        · exact (h1.1 (.inr h2)).1
        · exact h2.1
        · exact (h1.1 (.inl h2)).1
  have hT : Tables B.states B.parents B.ctab (post ++ (U ++ pre)) := (hB.tables hn).sublist (hperm.nodup_iff.1 hB.nodes) fun v hv =>
    hperm.mem_iff.2 hv
  rw [hB.marg_eq fun v _ hv => ha v hv, BN.exoSum]
  have hp2 : (B.nodes.filter (· ∉ pre)).Perm (U ++ post) := by
    refine (List.perm_ext_iff_of_nodup (hB.nodes.filter _) ?_).2 fun v => ?_
    · exact List.nodup_append'.2 ⟨hUn, hnd'.2.1, fun v hv hv' => ((hmU v).1 hv).2 ((ho v).1 (by rw [e]; simp [hv'])).2⟩
    · have h1 := ho v
      rw [e, List.mem_append] at h1
      simp only [List.mem_filter, decide_eq_true_eq, List.mem_append, hmU]
      constructor
      · rintro ⟨hv, hvp⟩
        by_cases hve : v ∈ endo
        · exact .inr ((h1.2 ⟨hv, hve⟩).resolve_left hvp)
        · exact .inl ⟨hv, hve⟩
      · rintro (h2 | h2)
        · exact ⟨h2.1, fun hv => h2.2 (h1.1 (.inl hv)).2⟩
        · exact ⟨(h1.1 (.inr h2)).1, fun hv => hnd'.2.2 hv h2⟩
  rw [sumOver_perm hp2 (hB.nodes.filter _), sumOver_append]
  refine sumOver_congr' (fun b => ?_) a
  rw [sumOver_congr' (fun b => prodT_perm B.ctab hperm b)]
  refine hT.sum_barren (fun v hv p hp hpp => ?_) b
  have hvn : v ∈ B.nodes := hperm.mem_iff.2 (List.mem_append_right _ hv)
  have hed := (hge v hvn p).1 hp
  have hpe := (ho p).1 (by rw [e]; simp [hpp])
  rcases List.mem_append.1 hv with hv | hv
  · exact ((hmU v).1 hv).2 (h.root _ hed hpe.2)
  · have hve : v ∈ endo := ((ho v).1 (by rw [e]; simp [hv])).2
    exact hnd'.2.2 (h.qtopo.pred_mem e hv (h.q_of_endo (edge_endo.2 ⟨hed, hpe.2, hve⟩))) hpp

/-- Separate components do not share exogenous variables. -/
theorem exoSum_split (hgn : g.nodes = B.nodes) (hge : ∀ v ∈ B.nodes, ∀ p, p ∈ B.parents v ↔ (p, v) ∈ g.edges) (hB : B.Valid) {k : V → Bool}
    (hk : Closed g endo k) {L : List V} (hL : ∀ v ∈ L, v ∈ B.nodes ∧ v ∈ endo) :
    B.exoSum (B.nodes.filter (· ∉ endo)) L a =
      B.exoSum ((B.nodes.filter (· ∉ endo)).filter k) (L.filter k) a *
        B.exoSum ((B.nodes.filter (· ∉ endo)).filter (!k ·)) (L.filter (!k ·)) a := by
  set U := B.nodes.filter (· ∉ endo) with hU
  have hmU : ∀ v, v ∈ U ↔ v ∈ B.nodes ∧ v ∉ endo := fun v => by simp [hU]
  have hUn : U.Nodup := hB.nodes.filter _
  have side : ∀ l : V → Bool, Closed g endo l → DependsOn (prodT B.ctab (U.filter l ++ L.filter l))
      ((U.filter l ++ L.filter l).flatMap fun v => v :: B.parents v) := fun l _ => DependsOn.prodT fun v hv => by
    refine hB.ctab_dep ?_
    rcases List.mem_append.1 hv with hv | hv
    · exact ((hmU v).1 (List.mem_filter.1 hv).1).1
    · exact (hL v (List.mem_filter.1 hv).1).1
  have hk' : Closed g endo (!k ·) := fun e he hx => by
    show (!k e.1) = !k e.2
    rw [hk e he hx]
  have off : ∀ l : V → Bool, Closed g endo l → ∀ u ∈ U, u ∈ ((U.filter l ++ L.filter l).flatMap fun v => v :: B.parents v) → l u = true := by
    intro l hl u hu hm
    obtain ⟨v, hv, hm⟩ := List.mem_flatMap.1 hm
    have hv' : v ∈ B.nodes ∧ l v = true := by
      rcases List.mem_append.1 hv with hv | hv
      · exact ⟨((hmU v).1 (List.mem_filter.1 hv).1).1, (List.mem_filter.1 hv).2⟩
      · exact ⟨(hL v (List.mem_filter.1 hv).1).1, (List.mem_filter.1 hv).2⟩
    rcases List.mem_cons.1 hm with rfl | hm
    · exact hv'.2
    · rw [hl (u, v) ((hge v hv'.1 u).1 hm) ((hmU u).1 hu).2]
      exact hv'.2
  rw [BN.exoSum, BN.exoSum, BN.exoSum, ← sumOver_mul (side k hk) (side _ hk') (fun u hu hm => by
    have := off k hk u (List.mem_filter.1 hu).1 hm
    have h2 := (List.mem_filter.1 hu).2
    simp [this] at h2) (fun u hu hm => by
    have := off _ hk' u (List.mem_filter.1 hu).1 hm
    have h2 := (List.mem_filter.1 hu).2
    simp [h2] at this), sumOver_perm (List.filter_append_perm k U).symm hUn]
  refine sumOver_congr' (fun b => ?_) a
  rw [← prodT_append]
  refine prodT_perm _ ?_ b
  have h1 := (List.filter_append_perm k U).symm
  have h2 := (List.filter_append_perm k L).symm
  refine (h1.append h2).trans ?_
  simp only [List.append_assoc]
  refine List.Perm.append_left _ ?_
  rw [← List.append_assoc, ← List.append_assoc]
  exact List.Perm.append_right _ List.perm_append_comm

/-- The conditional probabilities of the variables of a component multiply to the sum over the exogenous variables of the component. -/
theorem prefix_component (h : TianOk g endo order o) (hB : B.Valid) (hn : B.Normalised) (hnn : B.NonNeg) (hgn : g.nodes = B.nodes)
    (hge : ∀ v ∈ B.nodes, ∀ p, p ∈ B.parents v ↔ (p, v) ∈ g.edges) (ha : B.InStates a) {k : V → Bool} (hk : Closed g endo k)
    (pre post : List V) (e : o = pre ++ post) (hpos : B.marg pre a ≠ 0) :
    ((pre.filter k).map fun v => B.marg (v :: (g.qgraph endo order).pred v) a / B.marg ((g.qgraph endo order).pred v) a).prod =
      B.exoSum ((B.nodes.filter (· ∉ endo)).filter k) (pre.filter k) a := by
  have ho : ∀ v, v ∈ o ↔ v ∈ B.nodes ∧ v ∈ endo := fun v => by rw [h.mem_iff, hgn]
  induction pre using List.reverseRecOn generalizing post with
  | nil =>
    have hT : Tables B.states B.parents B.ctab ((B.nodes.filter (· ∉ endo)).filter k) := (hB.tables hn).sublist ((hB.nodes.filter _).filter _)
      fun v hv => (List.mem_filter.1 (List.mem_filter.1 hv).1).1
    simp only [List.filter_nil, List.map_nil, List.prod_nil, BN.exoSum, List.append_nil]
    exact (hT.sum_one a).symm
  | append_singleton pre x ih =>
    have e1 : o = pre ++ x :: post := by rw [e]; simp
    set c := B.marg (x :: (g.qgraph endo order).pred x) a / B.marg ((g.qgraph endo order).pred x) a with hc
    have hm : B.marg (pre ++ [x]) a = B.marg pre a * c := by
      rw [h.marg_prefix hB hn hnn hgn hge ha (pre ++ [x]) post e, h.marg_prefix hB hn hnn hgn hge ha pre (x :: post) e1, List.map_append,
        List.prod_append]
      simp [hc]
    have hp : B.marg pre a ≠ 0 := fun hz => hpos (by rw [hm, hz, zero_mul])
    have ih := ih (x :: post) e1 hp
    by_cases hx : k x = true
    · rw [List.filter_append, List.filter_cons_of_pos hx, List.filter_nil, List.map_append, List.prod_append, ih]
      simp only [List.map_cons, List.map_nil, List.prod_cons, List.prod_nil, mul_one]
      rw [← hc]
      have hL1 : ∀ v ∈ pre, v ∈ B.nodes ∧ v ∈ endo := fun v hv => (ho v).1 (by rw [e]; simp [hv])
      have hL2 : ∀ v ∈ pre ++ [x], v ∈ B.nodes ∧ v ∈ endo := fun v hv => (ho v).1 (by rw [e]; exact List.mem_append_left _ hv)
      rw [h.marg_exoSum hB hn hgn hge ha (pre ++ [x]) post e, h.marg_exoSum hB hn hgn hge ha pre (x :: post) e1,
        exoSum_split hgn hge hB hk hL2, exoSum_split hgn hge hB hk hL1] at hm
      rw [h.marg_exoSum hB hn hgn hge ha pre (x :: post) e1, exoSum_split hgn hge hB hk hL1] at hp
      rw [List.filter_append, List.filter_append (p := (!k ·)), List.filter_cons_of_pos hx, List.filter_cons_of_neg (by simp [hx]), List.filter_nil,
        List.filter_nil, List.append_nil] at hm
      have h0 := right_ne_zero_of_mul hp
      refine mul_right_cancel₀ h0 ?_
      rw [hm]; ring
    · rw [List.filter_append, List.filter_cons_of_neg hx, List.filter_nil, List.append_nil]
      exact ih

/-- … and this is the probability of the values of the component when all the other endogenous variables are imposed. -/
theorem component_do (h : TianOk g endo order o) (hB : B.Valid) (hn : B.Normalised) (hnn : B.NonNeg) (hgn : g.nodes = B.nodes)
    (hge : ∀ v ∈ B.nodes, ∀ p, p ∈ B.parents v ↔ (p, v) ∈ g.edges) (ha : B.InStates a) {k : V → Bool} (hk : Closed g endo k)
    (hpos : B.marg o a ≠ 0) {C : List V} (hC : ∀ v, v ∈ C ↔ v ∈ o ∧ k v = true) (hCn : C.Nodup) {d : Obs V S}
    (hd : ∀ v, v ∈ Dict.keys d ↔ v ∈ o ∧ k v = false) (hda : BN.Agrees d a) :
    (C.map fun v => B.marg (v :: (g.qgraph endo order).pred v) a / B.marg ((g.qgraph endo order).pred v) a).prod = B.doMarg d C a := by
  have ho : ∀ v, v ∈ o ↔ v ∈ B.nodes ∧ v ∈ endo := fun v => by rw [h.mem_iff, hgn]
  have hCp : C.Perm (o.filter k) := (List.perm_ext_iff_of_nodup hCn (h.nodup.filter _)).2 fun v => by rw [hC, List.mem_filter]
  rw [(hCp.map _).prod_eq, h.prefix_component hB hn hnn hgn hge ha hk o [] (by simp) hpos]
  set U := B.nodes.filter (· ∉ endo) with hU
  have hmU : ∀ v, v ∈ U ↔ v ∈ B.nodes ∧ v ∉ endo := fun v => by simp [hU]
  have hUn : U.Nodup := hB.nodes.filter _
  -- the exogenous variables of the other components sum to one
  have hT : Tables B.states B.parents B.ctab (U.filter (!k ·)) := (hB.tables hn).sublist (hUn.filter _)
    fun v hv => ((hmU v).1 (List.mem_filter.1 hv).1).1
  have h1 := exoSum_split (a := a) hgn hge hB hk (L := o.filter k) fun v hv => (ho v).1 (List.mem_filter.1 hv).1
  have e1 : (o.filter k).filter k = o.filter k := List.filter_eq_self.2 fun v hv => (List.mem_filter.1 hv).2
  have e2 : (o.filter k).filter (!k ·) = [] := List.filter_eq_nil_iff.2 fun v hv => by simp [(List.mem_filter.1 hv).2]
  rw [e1, e2] at h1
  have e3 : B.exoSum (U.filter (!k ·)) [] a = 1 := by
    rw [BN.exoSum, List.append_nil]; exact hT.sum_one a
  rw [← hU, e3, mul_one] at h1
  rw [← h1, BN.exoSum, BN.doMarg]
  -- the imposed variables are fixed
  set xs := B.nodes.filter (· ∉ C) with hxs
  have hxn : xs.Nodup := hB.nodes.filter _
  have hmx : ∀ v, v ∈ xs ↔ v ∈ B.nodes ∧ v ∉ C := fun v => by simp [hxs]
  have hkn : ∀ v ∈ Dict.keys d, v ∈ xs := fun v hv => by
    have := (hd v).1 hv
    refine (hmx v).2 ⟨((ho v).1 this.1).1, fun hc => ?_⟩
    have h2 := ((hC v).1 hc).2
    rw [this.2] at h2
    cases h2
  have hag : ∀ b : V → S, BN.Agrees d b ↔ ∀ v ∈ xs, v ∈ Dict.keys d → b v = a v := by
    intro b
    constructor
    · intro hb v _ hv
      obtain ⟨s, hs⟩ := Option.ne_none_iff_exists'.1 fun hN => Dict.get?_eq_none.1 hN hv
      rw [hb v s hs, hda v s hs]
    · intro hb v s hs
      have hv : v ∈ Dict.keys d := Dict.mem_keys_of_mem (Dict.mem_of_get? hs)
      rw [hb v (hkn v hv) hv, hda v s hs]
  have h3 : ∀ b, B.doJoint d b = if ∀ v ∈ xs, v ∈ Dict.keys d → b v = a v then B.trunc d b else 0 := by
    intro b
    rw [BN.doJoint]
    exact if_congr (hag b) rfl rfl
  rw [sumOver_congr' h3, sumOver_fixed hxn (fun x hx => hB.nodupStates x ((hmx x).1 hx).1) (fun v hv _ => ha v ((hmx v).1 hv).1)]
  have h4 : (fun v => if v ∈ xs ∧ v ∈ Dict.keys d then a v else a v) = a := by funext v; simp
  rw [h4]
  have hp : U.Perm (xs.filter (· ∉ Dict.keys d)) := by
    refine (List.perm_ext_iff_of_nodup hUn (hxn.filter _)).2 fun v => ?_
    rw [hmU]
    simp only [List.mem_filter, decide_eq_true_eq, hmx, hd, hC, ho]
    cases k v <;> simp <;> tauto
  rw [sumOver_perm hp hUn]
  refine sumOver_congr (hxn.filter _) fun b hb1 hb2 => ?_
  have hbin : B.InStates b := fun v hv => by
    by_cases hm : v ∈ xs.filter (· ∉ Dict.keys d)
    · exact hb2 v hm
    · rw [hb1 v hm]; exact ha v hv
  have hp2 : (U ++ o.filter k).Perm (B.nodes.filter (· ∉ Dict.keys d)) := by
    refine (List.perm_ext_iff_of_nodup ?_ (hB.nodes.filter _)).2 fun v => ?_
    · exact List.nodup_append'.2 ⟨hUn, h.nodup.filter _, fun v hv hv' => ((hmU v).1 hv).2 ((ho v).1 (List.mem_filter.1 hv').1).2⟩
    · simp only [List.mem_append, hmU, List.mem_filter, decide_eq_true_eq, hd, ho]
      cases k v <;> simp <;> tauto
  rw [prodT_perm _ hp2, BN.trunc]
  refine prodT_congr (ψ := B.table) fun v hv => hB.ctab_eq (List.mem_filter.1 hv).1 fun w hw => ?_
  rcases List.mem_cons.1 hw with rfl | hw
  · exact hbin _ (List.mem_filter.1 hv).1
  · exact hbin w (hB.parents v (List.mem_filter.1 hv).1 w hw)

end TianOk
end Component

end Verif
