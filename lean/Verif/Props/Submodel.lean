import Verif.Model.Submodel
import Verif.Learn.EMLemmas
import Verif.Props.Networks

/-!
# C74: the part of a network on a set of nodes
-/

set_option linter.unusedSectionVars false
set_option linter.unusedSimpArgs false

namespace Verif.Props

variable {V S K : Type} [DecidableEq V] [DecidableEq S] [Inhabited S] [Field K] [LinearOrder K]

/-- **C74** does not hold: `submodel` fails on every model, because it gives the arguments of `builder` by position
(`pgmodel.py:183`, `bnet.py:21`). -/
theorem C74_type_error {F : Type} [FactorLike F V S] (m : DagModel F V S) (nodes : List V) : m.submodel nodes = .error .typeError := rfl

/-- The network on some of the nodes -/
def subNet (B : BN V S K) (nodes : List V) : BN V S K := { B with nodes := B.nodes.filter (· ∈ nodes) }

/-- **C74** what the method would give with `builder(dag=…, factors=…)`: on a set of nodes that has all parents of its members, a
network whose joint distribution is the marginal of the set.

Partial: this is not the call in the code, which always fails (`C74_type_error`). -/
theorem C74_keywords_partial (vt : VType) {m : DagModel (Factor (storeOf vt : StoreImpl V S (Fl K))) V S} {B : BN V S K} (hr : Represents m B)
    (hB : B.Valid) (hn : B.Normalised) {nodes : List V} (hanc : ∀ v ∈ B.nodes, v ∈ nodes → ∀ p ∈ B.parents v, p ∈ nodes) :
    ∃ m', DagModel.builder 0 (m.graph.subgraph nodes) (m.factorsOf nodes) = .ok m' ∧ Represents m' (subNet B nodes) ∧
      ∀ a, (∀ v ∈ B.nodes, v ∈ nodes → a v ∈ B.states v) → (subNet B nodes).joint a = B.marg nodes a := by
  obtain ⟨l, h1, h2, h3⟩ := hr.slots hB
  have hmem : ∀ v, v ∈ (subNet B nodes).nodes ↔ v ∈ B.nodes ∧ v ∈ nodes := fun v => by simp [subNet]
  have hB' : (subNet B nodes).Valid :=
    { nodes := hB.nodes.filter _
      parents := fun v hv p hp => by
        obtain ⟨h1, h2⟩ := (hmem v).1 hv
        exact (hmem p).2 ⟨hB.parents v h1 p hp, hanc v h1 h2 p hp⟩
      acyclic := fun v h => hB.acyclic v (Relation.TransGen.mono (fun u w h => ⟨((hmem w).1 h.1).1, h.2⟩) _ _ h)
      nodupStates := fun v hv => hB.nodupStates v ((hmem v).1 hv).1
      nonempty := fun v hv => hB.nonempty v ((hmem v).1 hv).1
      scope := fun v hv => hB.scope v ((hmem v).1 hv).1 }
  have hg : (m.graph.subgraph nodes).WF :=
    { nodes := hr.wf.nodes.filter _
      edges := hr.wf.edges.filter _
      ends := fun e he => by
        obtain ⟨h1, h2⟩ := List.mem_filter.1 he
        obtain ⟨h3, h4⟩ : e.1 ∈ nodes ∧ e.2 ∈ nodes := by simpa using h2
        obtain ⟨h5, h6⟩ := hr.wf.ends e h1
        exact ⟨List.mem_filter.2 ⟨h5, by simpa using h3⟩, List.mem_filter.2 ⟨h6, by simpa using h4⟩⟩ }
  have hfac : m.factorsOf nodes = (l.filter fun p => p.1 ∈ nodes).map fun p => (p.1, some p.2) := by
    rw [DagModel.factorsOf, h1, List.filter_map]; rfl
  obtain ⟨e1, e2⟩ := DagModel.ofDict_factors (l := l.filter fun p => p.1 ∈ nodes) hB' hg (by rw [DiGraph.subgraph, subNet, hr.nodes])
    (fun v hv p => by
      obtain ⟨c1, c2⟩ := (hmem v).1 hv
      show p ∈ B.parents v ↔ _
      rw [hr.parents v c1, DiGraph.subgraph, List.mem_filter]
      constructor
      · intro h
        exact ⟨h, by simpa using ⟨hanc v c1 c2 p ((hr.parents v c1 p).2 h), c2⟩⟩
      · exact fun h => h.1)
    (by
      have : Dict.keys (l.filter fun p => p.1 ∈ nodes) = (Dict.keys l).filter (· ∈ nodes) := by
        rw [Dict.keys, Dict.keys, List.filter_map]; rfl
      rw [this, h2]; exact .refl _)
    (fun p hp => by
      obtain ⟨t1, t2, t3, t4, t5, t6⟩ := h3 p (List.mem_filter.1 hp).1
      exact ⟨t1, t2, t3, t4, t5, t6⟩) true
  refine ⟨_, ?_, e2, fun a ha => ?_⟩
  · rw [DagModel.builder, if_pos rfl, hfac]
    exact e1
  · have hmarg : B.marg nodes a = B.marg (subNet B nodes).nodes a := by
      exact congrFun (BN.marg_congr_set fun v hv => by rw [hmem v]; simp [hv]) a
    rw [hmarg, C29_ancestral hB hn hB'.nodes (fun v hv => ((hmem v).1 hv).1) hB'.parents fun v hv => ha v ((hmem v).1 hv).1 ((hmem v).1 hv).2]
    rfl

/-- The set with all parents of its members that the theorem asks for: `A → B` in the chain of the example. -/
example (vt : VType) : ∃ (m : DagModel (Factor (IQ vt)) Char Char) (B : BN Char Char ℚ), netOf vt gEx rowsEx = .ok m ∧ Represents m B ∧ B.Valid ∧
    B.Normalised ∧ m.submodel ['A', 'B'] = .error .typeError ∧
    ∃ m', DagModel.builder 0 (m.graph.subgraph ['A', 'B']) (m.factorsOf ['A', 'B']) = .ok m' ∧ Represents m' (subNet B ['A', 'B']) ∧
      ∀ a, (∀ v ∈ B.nodes, v ∈ ['A', 'B'] → a v ∈ B.states v) → (subNet B ['A', 'B']).joint a = B.marg ['A', 'B'] a := by
  obtain ⟨m, h1, h2, h3, h4, h5, h6⟩ := netOf_spec (by decide) (netCheck_ex vt)
  refine ⟨m, _, h1, h3, h4, h5, rfl, C74_keywords_partial vt h3 h4 h5 ?_⟩
  intro v hv hvn p hp
  have hpe := (h3.parents v hv p).1 hp
  rw [h2] at hpe
  have hall : ∀ e ∈ gEx.edges, e.2 ∈ ['A', 'B'] → e.1 ∈ ['A', 'B'] := by decide
  exact hall _ hpe hvn

end Verif.Props
