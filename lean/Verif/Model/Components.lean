import Verif.Model.Fusion
import Verif.Model.SamplingLemmas

/-!
# C-components and the graph of the decomposition (`models/cmodel.py:63-136`, `models/info.py`)

The functions only look at the graph and at the list of endogenous variables.  Sets are lists; theorems only speak of
membership.
-/

set_option linter.unusedSectionVars false
set_option linter.unusedSimpArgs false

namespace Verif
open Relation

namespace DiGraph
variable {V : Type} [DecidableEq V]

/-- `nx.connected_components(g.to_undirected())`: the component of each node that has not been seen -/
def components (g : DiGraph V) : List (List V) :=
  g.nodes.foldl (fun cs v => if cs.any fun c => decide (v ∈ c) then cs else cs ++ [g.component v]) []

/-- `cmodel.py:63-69` `endo_graph` -/
def endoGraph (g : DiGraph V) (endo : List V) : DiGraph V := g.subgraph endo

/-- `cmodel.py:71-78` `exo_graph`: the graph made of the edges that leave an exogenous variable; nodes without such
an edge are not in it. -/
def exoGraph (g : DiGraph V) (endo : List V) : DiGraph V := ofEdges (g.edges.filter fun e => e.1 ∉ endo)

/-- `cmodel.py:80-86` `ccomponents` -/
def ccomponents (g : DiGraph V) (endo : List V) : List (List V) := (g.exoGraph endo).components

/-- `cmodel.py:88-94` `exo_ccomponents` -/
def exoCComponents (g : DiGraph V) (endo : List V) : List (List V) :=
  (g.ccomponents endo).map fun c => c.filter fun v => v ∈ g.nodes ∧ v ∉ endo

/-- `cmodel.py:96-102` `endo_ccomponents` -/
def endoCComponents (g : DiGraph V) (endo : List V) : List (List V) :=
  (g.ccomponents endo).map fun c => c.filter (· ∈ endo)

/-- `info.py:16-17` `get_ccomponent`; a node that is not in the graph is a `KeyError` of networkx -/
def getCComponent (g : DiGraph V) (endo : List V) (v : V) : Py (List V) :=
  if v ∈ (g.exoGraph endo).nodes then .ok ((g.exoGraph endo).component v) else .error .keyError

/-- `info.py:24-25` `get_endo_ccomponent` -/
def getEndoCComponent (g : DiGraph V) (endo : List V) (v : V) : Py (List V) := do
  let c ← g.getCComponent endo v
  return c.filter (· ∈ endo)

/-- `info.py:34-36`: endogenous parents of a component that are not in it -/
def outerParents (g : DiGraph V) (endo c : List V) : List V :=
  ((c.flatMap fun v => (g.pred v).filter (· ∈ endo)).filter (· ∉ c)).dedup

/-- `info.py:33-41`: edges added for a component, listed in topological order; `nx.descendants` leaves out the
node, which is never `p` here -/
def compEdges (g : DiGraph V) (endo c : List V) : List (V × V) :=
  c.zipIdx.flatMap fun xi =>
    ((g.outerParents endo c ++ c.take xi.2).filter fun p => p ∉ ((g.endoGraph endo).reach xi.1).erase xi.1).map fun p => (p, xi.1)

/-- `info.py:33-41`: all edges added -/
def qEdges (g : DiGraph V) (endo order : List V) : List (V × V) :=
  (g.endoCComponents endo).flatMap fun c => g.compEdges endo (order.filter (· ∈ c))

/-- `info.py:28-43` `get_qgraph`. `order` is what `topological_sort` returns for the endogenous graph. -/
def qgraph (g : DiGraph V) (endo order : List V) : DiGraph V :=
  (g.qEdges endo order).foldl (fun q e => q.addEdge e.1 e.2) (g.endoGraph endo)

/-! ### Lemmas -/

theorem wf_empty : (empty : DiGraph V).WF := ⟨List.nodup_nil, List.nodup_nil, by simp [empty]⟩

theorem exoGraph_wf (g : DiGraph V) (endo : List V) : (g.exoGraph endo).WF := (foldl_addEdge wf_empty).1

theorem exoGraph_nodes {g : DiGraph V} {endo : List V} {w : V} :
    w ∈ (g.exoGraph endo).nodes ↔ ∃ e ∈ g.edges, e.1 ∉ endo ∧ (w = e.1 ∨ w = e.2) := by
  rw [exoGraph, ofEdges, (foldl_addEdge wf_empty).2.1]
  simp only [empty, List.not_mem_nil, false_or, List.mem_filter, decide_eq_true_eq, and_assoc]

theorem exoGraph_edges {g : DiGraph V} {endo : List V} {e : V × V} :
    e ∈ (g.exoGraph endo).edges ↔ e ∈ g.edges ∧ e.1 ∉ endo := by
  rw [exoGraph, ofEdges, (foldl_addEdge wf_empty).2.2]
  simp only [empty, List.not_mem_nil, false_or, List.mem_filter, decide_eq_true_eq]

/-- What `components` returns. -/
structure Comps (g : DiGraph V) (done : List V) (cs : List (List V)) : Prop where
  disjoint : cs.Pairwise fun c d => ∀ v ∈ c, v ∉ d
  cover : ∀ v ∈ done, ∃ c ∈ cs, v ∈ c
  comp : ∀ c ∈ cs, ∃ v ∈ g.nodes, c = g.component v

theorem components_spec {g : DiGraph V} (hg : g.WF) : Comps g g.nodes g.components := by
  have key : ∀ (post pre : List V) (cs : List (List V)), (∀ v ∈ post, v ∈ g.nodes) → Comps g pre cs →
      Comps g (pre ++ post) (post.foldl (fun cs v => if cs.any fun c => decide (v ∈ c) then cs else cs ++ [g.component v]) cs) := by
    intro post
    induction post with
    | nil => intro pre cs _ h; simpa using h
    | cons v post ih =>
      intro pre cs hn h
      rw [List.foldl_cons, show pre ++ v :: post = (pre ++ [v]) ++ post by simp]
      refine ih _ _ (fun w hw => hn w (List.mem_cons_of_mem _ hw)) ?_
      have hv := hn v List.mem_cons_self
      by_cases hc : (cs.any fun c => decide (v ∈ c)) = true
      · rw [if_pos hc]
        refine ⟨h.disjoint, fun w hw => ?_, h.comp⟩
        rcases List.mem_append.1 hw with hw | hw
        · exact h.cover w hw
        · rw [List.mem_singleton.1 hw]
          obtain ⟨c, h1, h2⟩ := List.any_eq_true.1 hc
          exact ⟨c, h1, by simpa using h2⟩
      · rw [if_neg hc]
        refine ⟨?_, fun w hw => ?_, fun c hcm => ?_⟩
        · rw [List.pairwise_append]
          refine ⟨h.disjoint, List.pairwise_singleton _ _, fun c hcm d hd w hw hwd => ?_⟩
          rw [List.mem_singleton.1 hd, mem_component hg hv] at hwd
          obtain ⟨x, hx, rfl⟩ := h.comp c hcm
          rw [mem_component hg hx] at hw
          refine hc (List.any_eq_true.2 ⟨_, hcm, ?_⟩)
          simpa using (mem_component hg hx).2 (hw.trans (component_symm hwd))
        · rcases List.mem_append.1 hw with hw | hw
          · obtain ⟨c, h1, h2⟩ := h.cover w hw
            exact ⟨c, List.mem_append_left _ h1, h2⟩
          · rw [List.mem_singleton.1 hw]
            exact ⟨_, List.mem_append_right _ List.mem_cons_self, (mem_component hg hv).2 .refl⟩
        · rcases List.mem_append.1 hcm with hcm | hcm
          · exact h.comp c hcm
          · exact ⟨v, hv, List.mem_singleton.1 hcm⟩
  exact key g.nodes [] [] (fun _ h => h) ⟨List.Pairwise.nil, by simp, by simp⟩

theorem mem_outerParents {g : DiGraph V} {endo c : List V} {p : V} :
    p ∈ g.outerParents endo c ↔ p ∉ c ∧ p ∈ endo ∧ ∃ v ∈ c, (p, v) ∈ g.edges := by
  simp only [outerParents, List.mem_dedup, List.mem_filter, List.mem_flatMap, mem_pred, decide_eq_true_eq]
  constructor
  · rintro ⟨⟨v, h1, h2, h3⟩, h4⟩; exact ⟨h4, h3, v, h1, h2⟩
  · rintro ⟨h4, h3, v, h1, h2⟩; exact ⟨⟨v, h1, h2, h3⟩, h4⟩

theorem mem_compEdges {g : DiGraph V} {endo c : List V} {p x : V} :
    (p, x) ∈ g.compEdges endo c ↔ ∃ pre post, c = pre ++ x :: post ∧ (p ∈ g.outerParents endo c ∨ p ∈ pre) ∧
      p ∉ ((g.endoGraph endo).reach x).erase x := by
  simp only [compEdges, List.mem_flatMap, List.mem_map, List.mem_filter, List.mem_append, decide_eq_true_eq, Prod.mk.injEq]
  constructor
  · rintro ⟨⟨y, i⟩, hi, q, ⟨h1, h2⟩, rfl, rfl⟩
    obtain ⟨hlt, hy⟩ := List.mem_zipIdx' hi
    refine ⟨c.take i, c.drop (i + 1), ?_, h1, h2⟩
    rw [hy, List.getElem_cons_drop, List.take_append_drop]
  · rintro ⟨pre, post, rfl, h1, h2⟩
    refine ⟨(x, pre.length), ?_, p, ⟨?_, h2⟩, rfl, rfl⟩
    · rw [List.mk_mem_zipIdx_iff_getElem?]; simp
    · simpa using h1

theorem foldl_qgraph {g : DiGraph V} (hg : g.WF) (endo order : List V) :
    (g.qgraph endo order).WF ∧
    (∀ w, w ∈ (g.qgraph endo order).nodes ↔ w ∈ (g.endoGraph endo).nodes ∨ ∃ e ∈ g.qEdges endo order, w = e.1 ∨ w = e.2) ∧
    ∀ e, e ∈ (g.qgraph endo order).edges ↔ e ∈ (g.endoGraph endo).edges ∨ e ∈ g.qEdges endo order :=
  foldl_addEdge (hg.subgraph endo)

end DiGraph
end Verif
