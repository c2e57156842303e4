import Verif.Model.Kinds
import Verif.Props.Components
import Verif.Learn.Gradient
import Verif.Props.Models

/-!
# C109: the exogenous side of the components
-/

set_option linter.unusedSectionVars false
set_option linter.unusedSimpArgs false

namespace Verif.Props
open Verif Relation

variable {V : Type} [DecidableEq V]

/-- **C109** no exogenous variable is in two components. -/
theorem C109_disjoint (g : DiGraph V) (endo : List V) : (g.exoCComponents endo).Pairwise fun c d => ∀ v ∈ c, v ∉ d := by
  rw [DiGraph.exoCComponents, List.pairwise_map]
  refine (DiGraph.components_spec (DiGraph.exoGraph_wf g endo)).disjoint.imp fun h v hv hd => ?_
  exact h v (List.mem_filter.1 hv).1 (List.mem_filter.1 hd).1

theorem mem_ccomponent {g : DiGraph V} {endo c : List V} (hc : c ∈ g.ccomponents endo) {x y : V} (hx : x ∈ c) :
    y ∈ c ↔ ReflTransGen (g.exoGraph endo).UEdge x y := by
  have hw := DiGraph.exoGraph_wf g endo
  obtain ⟨z, hz, rfl⟩ := (DiGraph.components_spec hw).comp c hc
  rw [DiGraph.mem_component hw hz] at hx
  rw [DiGraph.mem_component hw hz]
  exact ⟨fun h => (DiGraph.component_symm hx).trans h, fun h => hx.trans h⟩

theorem ccomponent_nodes {g : DiGraph V} {endo c : List V} (hc : c ∈ g.ccomponents endo) {x : V} (hx : x ∈ c) : x ∈ (g.exoGraph endo).nodes := by
  have hw := DiGraph.exoGraph_wf g endo
  obtain ⟨z, hz, rfl⟩ := (DiGraph.components_spec hw).comp c hc
  rw [DiGraph.mem_component hw hz] at hx
  rcases ReflTransGen.cases_tail hx with rfl | ⟨w, _, h | h⟩
  · exact hz
  · exact (hw.ends _ h).2
  · exact (hw.ends _ h).1

/-- **C109** the exogenous parts cover exactly the exogenous variables that have a child or an exogenous parent: one that stands alone is in no component. -/
theorem C109_cover {g : DiGraph V} (hg : g.WF) {endo : List V} {u : V} :
    (∃ c ∈ g.exoCComponents endo, u ∈ c) ↔ u ∉ endo ∧ ((∃ v, (u, v) ∈ g.edges) ∨ ∃ w, w ∉ endo ∧ (w, u) ∈ g.edges) := by
  have hs := DiGraph.components_spec (DiGraph.exoGraph_wf g endo)
  constructor
  · rintro ⟨c, hc, hu⟩
    obtain ⟨d, hd, rfl⟩ := List.mem_map.1 hc
    obtain ⟨h1, h2⟩ := List.mem_filter.1 hu
    simp only [decide_eq_true_eq] at h2
    obtain ⟨e, he, hee, rfl | rfl⟩ := DiGraph.exoGraph_nodes.1 (ccomponent_nodes hd h1)
    · exact ⟨h2.2, .inl ⟨_, he⟩⟩
    · exact ⟨h2.2, .inr ⟨_, hee, he⟩⟩
  · rintro ⟨hu, h⟩
    have hn : u ∈ (g.exoGraph endo).nodes ∧ u ∈ g.nodes := by
      rcases h with ⟨v, hv⟩ | ⟨w, hw, he⟩
      · exact ⟨DiGraph.exoGraph_nodes.2 ⟨_, hv, hu, .inl rfl⟩, (hg.ends _ hv).1⟩
      · exact ⟨DiGraph.exoGraph_nodes.2 ⟨_, he, hw, .inr rfl⟩, (hg.ends _ he).2⟩
    obtain ⟨c, hc, huc⟩ := hs.cover u hn.1
    exact ⟨_, List.mem_map_of_mem hc, List.mem_filter.2 ⟨huc, by simpa using ⟨hn.2, hu⟩⟩⟩

/-- **C109** the two lists of components go together: the exogenous parents of the variables of an endogenous part are in the exogenous part with the same
number, and the endogenous children of its variables are in the endogenous part. -/
theorem C109_pairs {g : DiGraph V} (hg : g.WF) {endo : List V} (i : Nat) {c d : List V} (hc : (g.endoCComponents endo)[i]? = some c)
    (hd : (g.exoCComponents endo)[i]? = some d) {u v : V} (hu : u ∉ endo) (hv : v ∈ endo) (he : (u, v) ∈ g.edges) : u ∈ d ↔ v ∈ c := by
  rw [DiGraph.endoCComponents, List.getElem?_map] at hc
  rw [DiGraph.exoCComponents, List.getElem?_map] at hd
  cases hk : (g.ccomponents endo)[i]? with
  | none => rw [hk] at hc; cases hc
  | some k =>
    rw [hk] at hc hd
    injection hc with hc
    injection hd with hd
    subst hc hd
    have hkm : k ∈ g.ccomponents endo := List.mem_of_getElem? hk
    have hx : (u, v) ∈ (g.exoGraph endo).edges := DiGraph.exoGraph_edges.2 ⟨he, hu⟩
    simp only [List.mem_filter, decide_eq_true_eq, hv, and_true, hu, not_false_eq_true, (hg.ends _ he).1]
    exact ⟨fun h => (mem_ccomponent hkm h).2 (.single (.inl hx)), fun h => (mem_ccomponent hkm h).2 (.single (.inr hx))⟩

/-- **C109** both lists have the same length. -/
theorem C109_length (g : DiGraph V) (endo : List V) : (g.exoCComponents endo).length = (g.endoCComponents endo).length := by
  simp [DiGraph.exoCComponents, DiGraph.endoCComponents]

/-- **C109** `get_exo_ccomponent` returns for each variable of a component, of either kind, its exogenous part; a variable in no component raises KeyError. -/
theorem C109_get (g : DiGraph V) (endo : List V) :
    (∀ (i : Nat) c d, (g.endoCComponents endo)[i]? = some c → (g.exoCComponents endo)[i]? = some d → ∀ v, v ∈ c ∨ v ∈ d →
      ∃ r, g.getExoCComponent endo v = .ok r ∧ ∀ w, w ∈ r ↔ w ∈ d) ∧
    ∀ v, (¬∃ e ∈ g.edges, e.1 ∉ endo ∧ (v = e.1 ∨ v = e.2)) → g.getExoCComponent endo v = .error .keyError := by
  refine ⟨fun i c d hc hd v hv => ?_, fun v hv => ?_⟩
  · rw [DiGraph.endoCComponents, List.getElem?_map] at hc
    rw [DiGraph.exoCComponents, List.getElem?_map] at hd
    cases hk : (g.ccomponents endo)[i]? with
    | none => rw [hk] at hc; cases hc
    | some k =>
      rw [hk] at hc hd
      injection hc with hc
      injection hd with hd
      subst hc hd
      have hkm : k ∈ g.ccomponents endo := List.mem_of_getElem? hk
      have hvk : v ∈ k := by rcases hv with h | h <;> exact (List.mem_filter.1 h).1
      have hvn := ccomponent_nodes hkm hvk
      refine ⟨((g.exoGraph endo).component v).filter fun w => w ∈ g.nodes ∧ w ∉ endo, ?_, fun w => ?_⟩
      · rw [DiGraph.getExoCComponent, DiGraph.getCComponent, if_pos hvn]; rfl
      · simp only [List.mem_filter, DiGraph.mem_component (DiGraph.exoGraph_wf g endo) hvn, mem_ccomponent hkm hvk]
  · rw [DiGraph.getExoCComponent, DiGraph.getCComponent, if_neg (by rwa [DiGraph.exoGraph_nodes])]; rfl

section
variable {S K : Type} [DecidableEq S] [Field K] [LinearOrder K] {I : StoreImpl V S (Fl K)} {L : LabelStore V S}

/-- **C109** the endogenous and the exogenous parents of a variable of the graph are its parents, each in one of the two lists, and the same holds for its
children; for a name outside the graph networkx raises its exception. -/
theorem C109_kinds (m : SCM I L) (v : V) :
    (v ∈ m.base.graph.nodes → (∃ a b, m.endoParents v = .ok a ∧ m.exoParents v = .ok b ∧ ∀ w, (w ∈ a ↔ (w, v) ∈ m.base.graph.edges ∧ w ∈ m.endogenous) ∧
        (w ∈ b ↔ (w, v) ∈ m.base.graph.edges ∧ w ∉ m.endogenous)) ∧
      ∃ a b, m.endoChildren v = .ok a ∧ m.exoChildren v = .ok b ∧ ∀ w, (w ∈ a ↔ (v, w) ∈ m.base.graph.edges ∧ w ∈ m.endogenous) ∧
        (w ∈ b ↔ (v, w) ∈ m.base.graph.edges ∧ w ∉ m.endogenous)) ∧
    (v ∉ m.base.graph.nodes → m.endoParents v = .error .networkx ∧ m.exoParents v = .error .networkx ∧ m.endoChildren v = .error .networkx ∧
      m.exoChildren v = .error .networkx) := by
  refine ⟨fun hv => ⟨?_, ?_⟩, fun hv => ?_⟩
  · have hp : m.base.getParents [v] = .ok ((m.base.graph.pred v).reverse.dedup.reverse) := by
      simp [DagModel.getParents, DiGraph.predecessors, hv]
    refine ⟨_, _, by rw [SCM.endoParents, hp]; rfl, by rw [SCM.exoParents, hp]; rfl, fun w => ?_⟩
    simp [DiGraph.mem_pred]
  · have hp : m.base.getChildren [v] = .ok ((m.base.graph.succ v).reverse.dedup.reverse) := by
      simp [DagModel.getChildren, DiGraph.successors, hv]
    refine ⟨_, _, by rw [SCM.endoChildren, hp]; rfl, by rw [SCM.exoChildren, hp]; rfl, fun w => ?_⟩
    simp [DiGraph.mem_succ]
  · have hp : m.base.getParents [v] = .error .networkx := by
      simp [DagModel.getParents, DiGraph.predecessors, hv]
    have hc : m.base.getChildren [v] = .error .networkx := by
      simp [DagModel.getChildren, DiGraph.successors, hv]
    rw [SCM.endoParents, SCM.exoParents, SCM.endoChildren, SCM.exoChildren, hp, hc]
    exact ⟨rfl, rfl, rfl, rfl⟩

end

/-! ### Examples -/

/-- Two pairs with common unobserved parents, another parent `T` of `Y`, and a variable `N` that stands alone -/
def gKinds : DiGraph Char :=
  ⟨['U', 'W', 'X', 'Y', 'P', 'Q', 'T', 'N'], [('U', 'X'), ('U', 'Y'), ('W', 'P'), ('W', 'Q'), ('P', 'Y'), ('X', 'Q'), ('T', 'Y')]⟩

/-- **C109** (example) -/
theorem C109_example : gKinds.WF ∧ gKinds.exoCComponents endoCross = [['U', 'T'], ['W']] ∧ gKinds.endoCComponents endoCross = [['X', 'Y'], ['P', 'Q']] ∧
    (gKinds.getExoCComponent endoCross 'X').map (fun l => decide (l.Perm ['U', 'T'])) = .ok true ∧ gKinds.getExoCComponent endoCross 'N' = .error .keyError :=
  ⟨⟨by decide, by decide, by decide⟩, by decide +kernel, by decide +kernel, by decide +kernel, by decide +kernel⟩

/-- **C109** (example) in the model `exScm` the parents of `Y` are `X` and an exogenous variable. -/
theorem C109_kinds_example : ∀ vt, (do
    let m ← exScm vt none false
    let a ← m.endoParents sY
    let b ← m.exoParents sY
    let c ← m.endoChildren sX
    let d ← m.exoChildren sX
    return (a, b, c, d)) = .ok ([sX], [sW], [sY], []) := by
  intro vt
  cases vt <;> decide +kernel

end Verif.Props
