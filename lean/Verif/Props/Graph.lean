import Verif.Props.ExNet
import Verif.Net.DSep
import Verif.Graph.OrderingLemmas

/-!
# Properties of graphs (C21, C23, C24, C25, C28)

`g.WF` says that the graph has no repeated nodes or edges and that edges join nodes, which networkx guarantees.
-/

set_option linter.unusedSectionVars false
set_option linter.unusedSimpArgs false

namespace Verif.Props
open Verif Relation

variable {V S K F : Type} [DecidableEq V] [DecidableEq S]

theorem gEx_wf : gEx.WF := ⟨by decide, by decide, by decide⟩
theorem gEx_acyclic : gEx.Acyclic := (DiGraph.hasCycle_iff gEx_wf).1 (by decide +kernel)

/-! ### C21 -/

/-- **C21** barren nodes are the nodes that are not in `Q` and have no descendant in `Q`; removal keeps the other nodes
and the edges among them. -/
theorem C21_barren_nodes {g : DiGraph V} (hg : g.WF) (ha : g.Acyclic) (Q : List V) :
    (∀ v, v ∈ g.barrenNodes Q ↔ v ∈ g.nodes ∧ v ∉ Q ∧ ∀ s ∈ Q, ¬ TransGen g.Edge v s) ∧
      (∀ v, v ∈ (g.barrenRemoval Q).nodes ↔ v ∈ g.nodes ∧ (v ∈ Q ∨ ∃ s ∈ Q, TransGen g.Edge v s)) ∧
      ∀ e, e ∈ (g.barrenRemoval Q).edges ↔ e ∈ g.edges ∧ e.1 ∈ (g.barrenRemoval Q).nodes ∧ e.2 ∈ (g.barrenRemoval Q).nodes := by
  have h1 : ∀ v, v ∈ g.barrenNodes Q ↔ v ∈ g.nodes ∧ v ∉ Q ∧ ∀ s ∈ Q, ¬ TransGen g.Edge v s := by
    intro v
    rw [DiGraph.mem_barrenNodes hg ha]
    refine and_congr_right fun _ => ?_
    constructor
    · intro h
      exact ⟨fun hv => h ⟨v, hv, .refl⟩, fun s hs ht => h ⟨s, hs, ht.to_reflTransGen⟩⟩
    · rintro ⟨h2, h3⟩ ⟨s, hs, hr⟩
      rcases reflTransGen_iff_eq_or_transGen.1 hr with rfl | ht
      · exact h2 hs
      · exact h3 s hs ht
  have h2 : ∀ v, v ∈ (g.barrenRemoval Q).nodes ↔ v ∈ g.nodes ∧ v ∉ g.barrenNodes Q := by
    intro v; rw [DiGraph.barrenRemoval_eq hg]; simp [DiGraph.removeNodes]
  refine ⟨h1, ?_, ?_⟩
  · intro v
    rw [h2, h1]
    constructor
    · rintro ⟨hv, h⟩
      refine ⟨hv, ?_⟩
      by_contra hc
      push_neg at hc
      exact h ⟨hv, hc.1, hc.2⟩
    · rintro ⟨hv, h | ⟨s, hs, h⟩⟩
      · exact ⟨hv, fun hc => hc.2.1 h⟩
      · exact ⟨hv, fun hc => hc.2.2 s hs h⟩
  · intro e
    rw [h2, h2, DiGraph.barrenRemoval_eq hg]
    simp only [DiGraph.removeNodes, List.mem_filter, decide_eq_true_eq]
    constructor
    · rintro ⟨he, ha1, ha2⟩
      exact ⟨he, ⟨(hg.ends e he).1, ha1⟩, (hg.ends e he).2, ha2⟩
    · rintro ⟨he, ⟨_, ha1⟩, _, ha2⟩
      exact ⟨he, ha1, ha2⟩

/-- In the example graph `C` and `D` are barren for `{B}`. -/
example : gEx.barrenNodes ['B'] = ['D', 'C'] ∧ gEx.barrenRemoval ['B'] = ⟨['A', 'B'], [('A', 'B')]⟩ := by decide +kernel

/-! ### C23 -/

/-- Parents, children and other parents of the children. -/
def InBlanket (g : DiGraph V) (v w : V) : Prop :=
  (w, v) ∈ g.edges ∨ (v, w) ∈ g.edges ∨ (w ≠ v ∧ ∃ c, (v, c) ∈ g.edges ∧ (w, c) ∈ g.edges)

theorem mem_getChildren [FactorLike F V S] {m : DagModel F V S} {vs : List V} (h : ∀ v ∈ vs, v ∈ m.graph.nodes) :
    ∃ l, m.getChildren vs = .ok l ∧ ∀ w, w ∈ l ↔ ∃ v ∈ vs, (v, w) ∈ m.graph.edges := by
  have : vs.mapM m.graph.successors = .ok (vs.map m.graph.succ) :=
    mapM_ok fun v hv => by rw [DiGraph.successors, if_pos (h v hv)]
  refine ⟨_, by rw [DagModel.getChildren, this]; rfl, fun w => ?_⟩
  simp [DiGraph.mem_succ]

theorem mem_getParents [FactorLike F V S] {m : DagModel F V S} {vs : List V} (h : ∀ v ∈ vs, v ∈ m.graph.nodes) :
    ∃ l, m.getParents vs = .ok l ∧ ∀ w, w ∈ l ↔ ∃ v ∈ vs, (w, v) ∈ m.graph.edges := by
  have : vs.mapM m.graph.predecessors = .ok (vs.map m.graph.pred) :=
    mapM_ok fun v hv => by rw [DiGraph.predecessors, if_pos (h v hv)]
  refine ⟨_, by rw [DagModel.getParents, this]; rfl, fun w => ?_⟩
  simp [DiGraph.mem_pred]

/-- **C23** `model.markov_blanket(v)`: without repetition, exactly the parents, the children and the other parents of
the children. -/
theorem C23_markov_blanket [FactorLike F V S] {m : DagModel F V S} (hg : m.graph.WF) {v : V} (hv : v ∈ m.graph.nodes) :
    ∃ l, m.markovBlanket v = .ok l ∧ l.Nodup ∧ ∀ w, w ∈ l ↔ InBlanket m.graph v w := by
  obtain ⟨ch, h1, h2⟩ := mem_getChildren (m := m) (vs := [v]) (by simpa using hv)
  obtain ⟨pa, h3, h4⟩ := mem_getParents (m := m) (vs := [v]) (by simpa using hv)
  have h2' : ∀ w, w ∈ ch ↔ (v, w) ∈ m.graph.edges := fun w => by simp [h2]
  have h4' : ∀ w, w ∈ pa ↔ (w, v) ∈ m.graph.edges := fun w => by simp [h4]
  obtain ⟨pc, h5, h6⟩ := mem_getParents (m := m) (vs := ch) (fun c hc => (hg.ends _ ((h2' c).1 hc)).2)
  refine ⟨_, by rw [DagModel.markovBlanket, h1, py_ok_bind, h3, py_ok_bind, h5, py_ok_bind]; rfl, List.nodup_dedup _, ?_⟩
  intro w
  simp only [List.mem_dedup, List.mem_append, List.mem_filter, decide_eq_true_eq, InBlanket, h2', h4', h6]
  constructor
  · rintro ((h | h) | ⟨⟨c, hc, h⟩, hw⟩)
    · exact .inr (.inl h)
    · exact .inl h
    · exact .inr (.inr ⟨hw, c, hc, h⟩)
  · rintro (h | h | ⟨hw, c, hc, h⟩)
    · exact .inl (.inr h)
    · exact .inl (.inl h)
    · exact .inr ⟨⟨c, hc, h⟩, hw⟩

/-- **C23** the function of `graphutils` (nothing hidden) agrees. -/
theorem C23_markov_blanket_util (g : DiGraph V) (v : V) :
    (g.markovBlanket v).Nodup ∧ ∀ w, w ∈ g.markovBlanket v ↔ InBlanket g v w := by
  refine ⟨List.nodup_dedup _, fun w => ?_⟩
  simp only [DiGraph.markovBlanket, List.mem_dedup, List.mem_append, List.mem_filter, decide_eq_true_eq, InBlanket,
    List.mem_flatMap, DiGraph.mem_succ, DiGraph.mem_pred]
  constructor
  · rintro ((h | h) | ⟨⟨c, hc, h⟩, hw⟩)
    · exact .inr (.inl h)
    · exact .inl h
    · exact .inr (.inr ⟨hw, c, hc, h⟩)
  · rintro (h | h | ⟨hw, c, hc, h⟩)
    · exact .inl (.inr h)
    · exact .inl (.inl h)
    · exact .inr ⟨⟨c, hc, h⟩, hw⟩

/-- A collider: `X → Z ← Y`, `W → X`. -/
example : (⟨['X', 'Y', 'Z', 'W'], [('X', 'Z'), ('Y', 'Z'), ('W', 'X')]⟩ : DiGraph Char).markovBlanket 'X' = ['Z', 'W', 'Y'] := by
  decide +kernel

/-! ### C24 -/

/-- **C24** a node that `dsep_nodes` reports is independent of the target given the rest of the evidence: in every
network over the graph the joint probability factorises. -/
theorem C24_dsep_independence [CommSemiring K] {B : BN V S K} (hB : B.Valid) (hn : B.Normalised) {g : DiGraph V}
    (hg : g.WF) (hgn : g.nodes = B.nodes) (hge : ∀ v ∈ B.nodes, ∀ p, p ∈ B.parents v ↔ (p, v) ∈ g.edges)
    {T E : List V} (hT : ∀ t ∈ T, t ∈ B.nodes) (hE : ∀ e ∈ E, e ∈ B.nodes) {v : V} (hv : v ∈ g.dsepNodes T E)
    {a : V → S} (ha : B.InStates a) :
    B.marg (T ++ v :: E.filter (· ≠ v)) a * B.marg (E.filter (· ≠ v)) a =
      B.marg (T ++ E.filter (· ≠ v)) a * B.marg (v :: E.filter (· ≠ v)) a := by
  obtain ⟨h1, h2⟩ := List.mem_filter.1 hv
  exact dsep_marg hB hn hg hgn hge hT (hgn ▸ h1) (fun z hz => hE z (List.mem_filter.1 hz).1) h2 ha

/-- **C24** observing such a node in addition to the evidence does not change the posterior of the target. -/
theorem C24_dsep_posterior [Field K] {B : BN V S K} (hB : B.Valid) (hn : B.Normalised) {g : DiGraph V}
    (hg : g.WF) (hgn : g.nodes = B.nodes) (hge : ∀ v ∈ B.nodes, ∀ p, p ∈ B.parents v ↔ (p, v) ∈ g.edges)
    {T E : List V} (hT : ∀ t ∈ T, t ∈ B.nodes) (hE : ∀ e ∈ E, e ∈ B.nodes) {v : V} (hv : v ∈ g.dsepNodes T E) (hvE : v ∉ E)
    {a : V → S} (ha : B.InStates a) (h1 : B.marg E a ≠ 0) (h2 : B.marg (v :: E) a ≠ 0) :
    B.marg (T ++ v :: E) a / B.marg (v :: E) a = B.marg (T ++ E) a / B.marg E a := by
  have h := C24_dsep_independence hB hn hg hgn hge hT hE hv ha
  have hf : E.filter (· ≠ v) = E := List.filter_eq_self.2 fun e he => by
    have : e ≠ v := fun h => hvE (h ▸ he)
    simpa using this
  rw [hf] at h
  rw [div_eq_div_iff h2 h1]; exact h

/-- In the example network `A` says nothing about `{C, D}` once `B` is known, and the hypotheses of the theorem hold. -/
example (vt : VType) : ∃ m, netOf vt gEx rowsEx = .ok m ∧ 'A' ∈ gEx.dsepNodes ['C', 'D'] ['B'] ∧ 'A' ∉ gEx.dsepNodes ['C', 'D'] [] ∧
    ∀ a, (BN.ofModel (IQ vt) m : BN Char Char ℚ).InStates a →
      (BN.ofModel (IQ vt) m).marg (['C', 'D'] ++ ['A', 'B']) a * (BN.ofModel (IQ vt) m).marg ['B'] a =
        (BN.ofModel (IQ vt) m).marg (['C', 'D'] ++ ['B']) a * (BN.ofModel (IQ vt) m).marg ['A', 'B'] a := by
  obtain ⟨m, h1, h2, h3, h4, h5, h6⟩ := ex_net vt
  refine ⟨m, h1, by decide +kernel, by decide +kernel, fun a ha => ?_⟩
  exact C24_dsep_independence h4 h5 (h2 ▸ gEx_wf) (h2 ▸ h3.nodes) (fun v hv p => h2 ▸ h3.parents v hv p)
    (T := ['C', 'D']) (E := ['B']) (by rw [← h3.nodes, h2]; decide) (by rw [← h3.nodes, h2]; decide) (v := 'A')
    (by rw [h2]; decide +kernel) ha

/-! ### C25 -/

/-- **C25** whatever the ties are broken with, each of the three heuristics succeeds, returns every variable to remove
once, and at each step takes a variable of least cost, where the cost is that of the elimination game
(`Spec/Elim.lean`): number of neighbours, number of fill-in arcs, or product of the sizes of the clique. -/
theorem C25_elimination_order {g : DiGraph V} (hg : g.WF) (ha : g.Acyclic) (k : Ordering.Kind) (rnd : Nat → Nat)
    {sizes : List (V × Nat)} {size : V → Nat} (hs : k = .minWeight → ∀ v ∈ g.nodes, Dict.get sizes v = .ok (size v))
    {rm : List V} (hn : rm.Nodup) (hr : ∀ v ∈ rm, v ∈ g.nodes) :
    ∃ o, Ordering.elimOrdering k rnd g rm sizes = .ok o ∧ o.Perm rm ∧
      ∀ pre v post, o = pre ++ v :: post → ∀ w ∈ v :: post,
        Ordering.specCost g size k pre v ≤ Ordering.specCost g size k pre w :=
  Ordering.elimOrdering_ok hg ha k hs rnd hn hr

/-- In `X → Z ← Y`, `Z → W` eliminating `W` is cheapest for `min_size`, then the moral triangle remains. -/
example : Ordering.elimOrdering .minSize (fun _ => 0) (⟨['X', 'Y', 'Z', 'W'], [('X', 'Z'), ('Y', 'Z'), ('Z', 'W')]⟩ : DiGraph Char)
    ['Z', 'X', 'W'] [] = .ok ['W', 'Z', 'X'] := by decide +kernel

example : Ordering.elimOrdering .minWeight (fun _ => 1) gEx ['A', 'B', 'C'] [('A', 2), ('B', 2), ('C', 3), ('D', 2)] =
    .ok ['A', 'B', 'C'] := by decide +kernel

/-! ### C28 -/

/-- **C28** a model can be built over a directed graph exactly when the graph has no directed cycle; otherwise the
constructor raises `ValueError`, whatever the factors. -/
theorem C28_acyclic [FactorLike F V S] {g : DiGraph V} (hg : g.WF) (check : Bool) :
    ((∃ m : DagModel F V S, DagModel.ofList g [] check = .ok m) ↔ g.Acyclic) ∧
      (¬ g.Acyclic → ∀ fs : List F, (DagModel.ofList g fs check : Py (DagModel F V S)) = .error .valueError) ∧
      (¬ g.Acyclic → ∀ fs : List (V × Option F), (DagModel.ofDict g fs check : Py (DagModel F V S)) = .error .valueError) := by
  have hno : ¬ g.Acyclic → (DagModel.init g check : Py (DagModel F V S)) = .error .valueError := by
    intro h
    rw [DagModel.init, if_pos]
    rw [← DiGraph.hasCycle_iff hg] at h
    simpa using h
  have h1 : ¬ g.Acyclic → ∀ fs : List F, (DagModel.ofList g fs check : Py (DagModel F V S)) = .error .valueError := by
    intro h fs; rw [DagModel.ofList, hno h]; rfl
  refine ⟨⟨?_, ?_⟩, h1, ?_⟩
  · rintro ⟨m, hm⟩
    by_contra hc
    rw [h1 hc] at hm
    cases hm
  · intro h
    exact ⟨_, by rw [DagModel.ofList, DagModel.init_ok hg h]; rfl⟩
  · intro h fs; rw [DagModel.ofDict, hno h]; rfl

/-- A cycle of length three, and a loop. -/
example : ¬ (⟨['X', 'Y', 'Z'], [('X', 'Y'), ('Y', 'Z'), ('Z', 'X')]⟩ : DiGraph Char).Acyclic ∧
    ¬ (⟨['X'], [('X', 'X')]⟩ : DiGraph Char).Acyclic := by
  constructor
  · rw [← DiGraph.hasCycle_iff ⟨by decide, by decide, by decide⟩]; decide +kernel
  · rw [← DiGraph.hasCycle_iff ⟨by decide, by decide, by decide⟩]; decide +kernel

end Verif.Props
