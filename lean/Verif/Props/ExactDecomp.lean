import Verif.Props.Components
import Verif.Net.Tian

/-!
# Exactly when the decomposition graph is acyclic (C67)
-/

set_option linter.unusedSectionVars false
set_option linter.unusedSimpArgs false

namespace Verif.Props
open Verif Relation

variable {V : Type} [DecidableEq V]

/-- An order of the endogenous variables in which parents come before their children, the members of each component come in the
order `order`, and the parents that a component has outside come before those of its members of which they are not descendants. -/
structure Suits (g : DiGraph V) (endo order o : List V) : Prop where
  topo : TopoOrder (g.endoGraph endo) o
  inside : ∀ c ∈ g.endoCComponents endo, ∀ x ∈ c, ∀ y ∈ c, Before order x y → Before o x y
  outside : ∀ c ∈ g.endoCComponents endo, ∀ p ∈ endo, p ∉ c → (∃ v ∈ c, (p, v) ∈ g.edges) → ∀ x ∈ c,
    ¬ TransGen (g.endoGraph endo).Edge x p → Before o p x

theorem TopoOrder.before {g : DiGraph V} (hg : g.WF) {o : List V} (ho : TopoOrder g o) {p x : V} (h : (p, x) ∈ g.edges) : Before o p x := by
  obtain ⟨pre, post, e⟩ := List.append_of_mem (ho.perm.mem_iff.2 (hg.ends _ h).2)
  exact ⟨pre, post, e, ho.sorted pre x post e p h⟩

theorem TopoOrder.trans_idx {g : DiGraph V} (hg : g.WF) {o : List V} (ho : TopoOrder g o) {p x : V} (h : TransGen g.Edge p x) :
    o.idxOf p < o.idxOf x := by
  have hn : o.Nodup := ho.perm.nodup_iff.2 hg.nodes
  induction h with
  | single h => exact (TopoOrder.before hg ho h).idx hn
  | tail _ h ih => exact ih.trans ((TopoOrder.before hg ho h).idx hn)

theorem Before.filter {o : List V} {p x : V} {q : V → Bool} (h : Before o p x) (hp : q p = true) (hx : q x = true) : Before (o.filter q) p x := by
  obtain ⟨pre, post, rfl, h⟩ := h
  exact ⟨pre.filter q, post.filter q, by rw [List.filter_append, List.filter_cons, if_pos hx], List.mem_filter.2 ⟨h, hp⟩⟩

/-- **C67** the decomposition graph is acyclic exactly when some order suits the components. -/
theorem C67_exact {g : DiGraph V} (hg : g.WF) {endo order : List V} (ho : TopoOrder (g.endoGraph endo) order) :
    (g.qgraph endo order).Acyclic ↔ ∃ o, Suits g endo order o := by
  have hw : (g.endoGraph endo).WF := hg.subgraph endo
  have hn : order.Nodup := ho.perm.nodup_iff.2 hw.nodes
  obtain ⟨hq, _, hqe⟩ := DiGraph.foldl_qgraph hg endo order
  have hqn := (C67_contains hg ho).2
  have hen : ∀ v, v ∈ (g.endoGraph endo).nodes ↔ v ∈ g.nodes ∧ v ∈ endo := fun v => by simp [DiGraph.endoGraph, DiGraph.subgraph]
  constructor
  · intro ha
    obtain ⟨o, hoq⟩ := DiGraph.Acyclic.exists_topo hq ha
    refine ⟨o, ⟨hoq.perm.trans ((List.perm_ext_iff_of_nodup hq.nodes hw.nodes).2 fun v => (hqn v).trans (hen v).symm),
      fun pre v post e p h => hoq.sorted pre v post e p ((hqe _).2 (.inl h))⟩, ?_, ?_⟩
    · intro c hc x hx y hy hb
      refine TopoOrder.before hq hoq ((hqe _).2 (.inr (List.mem_flatMap.2 ⟨c, hc, ?_⟩)))
      obtain ⟨pre, post, e, hp⟩ := hb.filter (q := fun v => decide (v ∈ c)) (by simpa using hx) (by simpa using hy)
      refine DiGraph.mem_compEdges.2 ⟨pre, post, e, .inr hp, fun hr => ?_⟩
      have hlt := hb.idx hn
      have hne : x ≠ y := fun e => by rw [e] at hlt; exact lt_irrefl _ hlt
      have hyn : y ∈ (g.endoGraph endo).nodes := by
        obtain ⟨a, b, e', _⟩ := hb
        exact ho.perm.mem_iff.1 (by rw [e']; simp)
      rw [List.mem_erase_of_ne hne, DiGraph.mem_reach hw hyn] at hr
      rcases reflTransGen_iff_eq_or_transGen.1 hr with h | h
      · exact hne h
      · exact absurd (TopoOrder.trans_idx hw ho h) (by omega)
    · intro c hc p hpe hpc ⟨v, hv, hpv⟩ x hx hnt
      have hmo : ∀ w ∈ c, w ∈ order := fun w hw' => by
        obtain ⟨hwe, u, _, he⟩ := C66_cover.1 ⟨c, hc, hw'⟩
        exact ho.perm.mem_iff.2 ((hen w).2 ⟨(hg.ends _ he).2, hwe⟩)
      have hpo : p ∈ order := ho.perm.mem_iff.2 ((hen p).2 ⟨(hg.ends _ hpv).1, hpe⟩)
      refine TopoOrder.before hq hoq ((hqe _).2 (.inr (List.mem_flatMap.2 ⟨c, hc, ?_⟩)))
      obtain ⟨pre, post, e⟩ := List.append_of_mem (List.mem_filter.2 ⟨hmo x hx, by simpa using hx⟩ : x ∈ order.filter (· ∈ c))
      refine DiGraph.mem_compEdges.2 ⟨pre, post, e, .inl (DiGraph.mem_outerParents.2 ⟨fun h => hpc (by simpa using (List.mem_filter.1 h).2), hpe, v,
        List.mem_filter.2 ⟨hmo v hv, by simpa using hv⟩, hpv⟩), fun hr => ?_⟩
      have hne : p ≠ x := fun e => hpc (e ▸ hx)
      rw [List.mem_erase_of_ne hne, DiGraph.mem_reach hw (ho.perm.mem_iff.1 (hmo x hx))] at hr
      rcases reflTransGen_iff_eq_or_transGen.1 hr with h | h
      · exact hne h
      · exact hnt h
  · rintro ⟨o, hs⟩
    have hno : o.Nodup := hs.topo.perm.nodup_iff.2 hw.nodes
    have step : ∀ p x, (g.qgraph endo order).Edge p x → o.idxOf p < o.idxOf x := by
      intro p x hpx
      rcases (hqe (p, x)).1 hpx with he | he
      · exact (TopoOrder.before hw hs.topo he).idx hno
      · obtain ⟨c, hc, hce⟩ := List.mem_flatMap.1 he
        obtain ⟨pre, post, h4, h5, h6⟩ := DiGraph.mem_compEdges.1 hce
        have hxf : x ∈ order.filter (· ∈ c) := by rw [h4]; simp
        have hxc : x ∈ c := by simpa using (List.mem_filter.1 hxf).2
        rcases h5 with h5 | h5
        · obtain ⟨hpc, hpe, v, hv, hpv⟩ := DiGraph.mem_outerParents.1 h5
          have hpo : p ∈ order := ho.perm.mem_iff.2 ((hen p).2 ⟨(hg.ends _ hpv).1, hpe⟩)
          have hpc' : p ∉ c := fun hp => hpc (List.mem_filter.2 ⟨hpo, by simpa using hp⟩)
          refine Before.idx hno (hs.outside c hc p hpe hpc' ⟨v, by simpa using (List.mem_filter.1 hv).2, hpv⟩ x hxc fun ht => h6 ?_)
          have hne : p ≠ x := fun e => hpc' (e ▸ hxc)
          rw [List.mem_erase_of_ne hne, DiGraph.mem_reach hw (ho.perm.mem_iff.1 (List.mem_filter.1 hxf).1)]
          exact ht.to_reflTransGen
        · have hpf : p ∈ order.filter (· ∈ c) := by rw [h4]; simp [h5]
          exact Before.idx hno (hs.inside c hc p (by simpa using (List.mem_filter.1 hpf).2) x hxc (Before.of_filter ⟨pre, post, h4, h5⟩))
    intro v hv
    have : ∀ w, TransGen (g.qgraph endo order).Edge v w → o.idxOf v < o.idxOf w := by
      intro w ht
      induction ht with
      | single h => exact step _ _ h
      | tail _ h ih => exact ih.trans (step _ _ h)
    exact absurd (this v hv) (lt_irrefl _)

/-- **C67** so the constructor of a network accepts the decomposition graph exactly then, and raises `ValueError` otherwise. -/
theorem C67_built {F S : Type} [DecidableEq S] [FactorLike F V S] {g : DiGraph V} (hg : g.WF) {endo order : List V}
    (ho : TopoOrder (g.endoGraph endo) order) (check : Bool) :
    ((∃ m, (DagModel.init (g.qgraph endo order) check : Py (DagModel F V S)) = .ok m) ↔ ∃ o, Suits g endo order o) ∧
    ((¬ ∃ o, Suits g endo order o) → (DagModel.init (g.qgraph endo order) check : Py (DagModel F V S)) = .error .valueError) := by
  have hc : (g.qgraph endo order).hasCycle = false ↔ (g.qgraph endo order).Acyclic := DiGraph.hasCycle_iff (DiGraph.foldl_qgraph hg endo order).1
  rw [← C67_exact hg ho, ← hc, DagModel.init]
  cases (g.qgraph endo order).hasCycle <;> simp

/-- Both cases occur: an order suits the bow `P → X → Y` with `X`, `Y` confounded, none suits the crossed pairs. -/
theorem C67_exact_example : (∃ o, Suits gBow ['P', 'X', 'Y'] ['P', 'X', 'Y'] o) ∧
    ∀ order, TopoOrder (gCross.endoGraph endoCross) order → ¬ ∃ o, Suits gCross endoCross order o :=
  ⟨(C67_exact gBow_wf gBow_topo).1 ((DiGraph.hasCycle_iff (DiGraph.foldl_qgraph gBow_wf _ _).1).1 (by decide +kernel)),
    fun order ho h => (C67_cyclic.2.2 order ho).1 ((C67_exact gCross_wf ho).2 h)⟩

end Verif.Props
