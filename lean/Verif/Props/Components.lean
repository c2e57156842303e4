import Verif.Model.Components
import Verif.Model.Build

/-!
# C-components and decomposition graph (C66, C67)
-/

set_option linter.unusedSectionVars false
set_option linter.unusedSimpArgs false

namespace Verif.Props
open Verif Relation

section
variable {V : Type} [DecidableEq V]

/-! ### C66 -/

/-- `x` and `y` are endogenous children of the same exogenous variable. -/
def Confounded (g : DiGraph V) (endo : List V) (x y : V) : Prop :=
  x ∈ endo ∧ y ∈ endo ∧ ∃ u, u ∉ endo ∧ (u, x) ∈ g.edges ∧ (u, y) ∈ g.edges

/-- **C66** no variable is in two components. -/
theorem C66_disjoint (g : DiGraph V) (endo : List V) :
    (g.endoCComponents endo).Pairwise fun c d => ∀ v ∈ c, v ∉ d := by
  rw [DiGraph.endoCComponents, List.pairwise_map]
  refine (DiGraph.components_spec (DiGraph.exoGraph_wf g endo)).disjoint.imp fun h v hv hd => ?_
  exact h v (List.mem_filter.1 hv).1 (List.mem_filter.1 hd).1

/-- **C66** the components cover exactly the endogenous variables that have an exogenous parent. -/
theorem C66_cover {g : DiGraph V} {endo : List V} {v : V} :
    (∃ c ∈ g.endoCComponents endo, v ∈ c) ↔ v ∈ endo ∧ ∃ u, u ∉ endo ∧ (u, v) ∈ g.edges := by
  have hs := DiGraph.components_spec (DiGraph.exoGraph_wf g endo)
  constructor
  · rintro ⟨c, hc, hv⟩
    obtain ⟨d, hd, rfl⟩ := List.mem_map.1 hc
    obtain ⟨h1, h2⟩ := List.mem_filter.1 hv
    have h2 : v ∈ endo := by simpa using h2
    obtain ⟨x, hx, rfl⟩ := hs.comp d hd
    rw [DiGraph.mem_component (DiGraph.exoGraph_wf g endo) hx] at h1
    have hvn : v ∈ (g.exoGraph endo).nodes := by
      rcases ReflTransGen.cases_tail h1 with rfl | ⟨w, _, hw⟩
      · exact hx
      · rcases hw with hw | hw
        · exact ((DiGraph.exoGraph_wf g endo).ends _ hw).2
        · exact ((DiGraph.exoGraph_wf g endo).ends _ hw).1
    obtain ⟨e, he, hne, rfl | rfl⟩ := DiGraph.exoGraph_nodes.1 hvn
    · exact absurd h2 hne
    · exact ⟨h2, e.1, hne, he⟩
  · rintro ⟨hv, u, hu, he⟩
    obtain ⟨c, hc, hvc⟩ := hs.cover v (DiGraph.exoGraph_nodes.2 ⟨(u, v), he, hu, .inr rfl⟩)
    exact ⟨c.filter (· ∈ endo), List.mem_map_of_mem hc, List.mem_filter.2 ⟨hvc, by simpa using hv⟩⟩

/-- **C66** endogenous children of the same exogenous variable are in the same component. -/
theorem C66_together {g : DiGraph V} {endo : List V} {x y : V} (h : Confounded g endo x y) {c : List V}
    (hc : c ∈ g.endoCComponents endo) (hx : x ∈ c) : y ∈ c := by
  have hw := DiGraph.exoGraph_wf g endo
  have hs := DiGraph.components_spec hw
  obtain ⟨h1, h2, u, hu, hux, huy⟩ := h
  obtain ⟨d, hd, rfl⟩ := List.mem_map.1 hc
  obtain ⟨z, hz, rfl⟩ := hs.comp d hd
  have hxd := (List.mem_filter.1 hx).1
  rw [DiGraph.mem_component hw hz] at hxd
  refine List.mem_filter.2 ⟨(DiGraph.mem_component hw hz).2 ?_, by simpa using h2⟩
  refine (hxd.tail (b := x) (c := u) (.inr ?_)).tail (.inl ?_)
  · exact DiGraph.exoGraph_edges.2 ⟨hux, hu⟩
  · exact DiGraph.exoGraph_edges.2 ⟨huy, hu⟩

/-- **C66** nothing else is joined: when no edge enters an exogenous variable, two members of a component are linked by a
chain of variables with common exogenous parents. -/
theorem C66_minimal {g : DiGraph V} {endo : List V} (hroot : ∀ e ∈ g.edges, e.2 ∈ endo) {c : List V}
    (hc : c ∈ g.endoCComponents endo) {x y : V} (hx : x ∈ c) (hy : y ∈ c) : ReflTransGen (Confounded g endo) x y := by
  have hw := DiGraph.exoGraph_wf g endo
  have hs := DiGraph.components_spec hw
  obtain ⟨d, hd, rfl⟩ := List.mem_map.1 hc
  obtain ⟨z, hz, rfl⟩ := hs.comp d hd
  obtain ⟨hx1, hx2⟩ := List.mem_filter.1 hx
  obtain ⟨hy1, hy2⟩ := List.mem_filter.1 hy
  rw [DiGraph.mem_component hw hz] at hx1 hy1
  have hpath : ReflTransGen (g.exoGraph endo).UEdge x y := (DiGraph.component_symm hx1).trans hy1
  have key : ∀ w, ReflTransGen (g.exoGraph endo).UEdge x w →
      (w ∈ endo → ReflTransGen (Confounded g endo) x w) ∧
      (w ∉ endo → ∃ v, v ∈ endo ∧ (w, v) ∈ g.edges ∧ ReflTransGen (Confounded g endo) x v) := by
    intro w hp
    induction hp with
    | refl => exact ⟨fun _ => .refl, fun h => absurd (by simpa using hx2) h⟩
    | @tail b w _ hbw ih =>
      rcases hbw with hbw | hbw
      · obtain ⟨h1, h2⟩ := DiGraph.exoGraph_edges.1 hbw
        have hwe : w ∈ endo := hroot _ h1
        refine ⟨fun _ => ?_, fun h => absurd hwe h⟩
        obtain ⟨v, hv1, hv2, hv3⟩ := ih.2 h2
        exact hv3.tail ⟨hv1, hwe, b, h2, hv2, h1⟩
      · obtain ⟨h1, h2⟩ := DiGraph.exoGraph_edges.1 hbw
        have hbe : b ∈ endo := hroot _ h1
        exact ⟨fun h => absurd h h2, fun _ => ⟨b, hbe, h1, ih.1 hbe⟩⟩
  exact (key y hpath).1 (by simpa using hy2)

/-- `get_endo_ccomponent` returns the component of the list that holds the variable. -/
theorem C66_get {g : DiGraph V} {endo : List V} {v : V} {c : List V} (hc : c ∈ g.endoCComponents endo) (hv : v ∈ c) :
    ∃ d, g.getEndoCComponent endo v = .ok d ∧ ∀ w, w ∈ d ↔ w ∈ c := by
  have hw := DiGraph.exoGraph_wf g endo
  have hs := DiGraph.components_spec hw
  obtain ⟨hve, u, hu, he⟩ := C66_cover.1 ⟨c, hc, hv⟩
  have hvn : v ∈ (g.exoGraph endo).nodes := DiGraph.exoGraph_nodes.2 ⟨(u, v), he, hu, .inr rfl⟩
  obtain ⟨d, hd, rfl⟩ := List.mem_map.1 hc
  obtain ⟨z, hz, rfl⟩ := hs.comp d hd
  have hv1 := (List.mem_filter.1 hv).1
  rw [DiGraph.mem_component hw hz] at hv1
  refine ⟨((g.exoGraph endo).component v).filter (· ∈ endo), ?_, fun w => ?_⟩
  · rw [DiGraph.getEndoCComponent, DiGraph.getCComponent, if_pos hvn]; rfl
  · simp only [List.mem_filter, DiGraph.mem_component hw hvn, DiGraph.mem_component hw hz]
    constructor
    · rintro ⟨h1, h2⟩; exact ⟨hv1.trans h1, h2⟩
    · rintro ⟨h1, h2⟩; exact ⟨(DiGraph.component_symm hv1).trans h1, h2⟩

/-! ### C67 -/

/-- `p` comes before `x` in the list. -/
def Before (order : List V) (p x : V) : Prop := ∃ pre post, order = pre ++ x :: post ∧ p ∈ pre

theorem Before.idx {order : List V} (hn : order.Nodup) {p x : V} (h : Before order p x) :
    order.idxOf p < order.idxOf x := by
  obtain ⟨pre, post, rfl, hp⟩ := h
  have hx : x ∉ pre := fun hx => (List.nodup_append'.1 hn).2.2 hx List.mem_cons_self
  rw [List.idxOf_append_of_mem hp, List.idxOf_append_of_notMem hx]
  have := List.idxOf_lt_length_of_mem hp
  omega

theorem Before.of_filter {order : List V} {P : V → Bool} {p x : V} (h : Before (order.filter P) p x) : Before order p x := by
  obtain ⟨pre, post, h1, h2⟩ := h
  obtain ⟨l1, l2, rfl, rfl, h3⟩ := List.filter_eq_append_iff.1 h1
  obtain ⟨k1, k2, rfl, _, _, _⟩ := List.filter_eq_cons_iff.1 h3
  exact ⟨l1 ++ k1, k2, by simp, List.mem_append_left _ (List.mem_filter.1 h2).1⟩

/-- **C67** the decomposition graph contains the endogenous graph and has no other nodes. -/
theorem C67_contains {g : DiGraph V} (hg : g.WF) {endo order : List V} (ho : TopoOrder (g.endoGraph endo) order) :
    (∀ e ∈ g.edges, e.1 ∈ endo → e.2 ∈ endo → e ∈ (g.qgraph endo order).edges) ∧
    ∀ v, v ∈ (g.qgraph endo order).nodes ↔ v ∈ g.nodes ∧ v ∈ endo := by
  obtain ⟨_, h2, h3⟩ := DiGraph.foldl_qgraph hg endo order
  have hnodes : ∀ v, v ∈ (g.endoGraph endo).nodes ↔ v ∈ g.nodes ∧ v ∈ endo := fun v => by
    simp [DiGraph.endoGraph, DiGraph.subgraph]
  refine ⟨fun e he h1 h2 => (h3 e).2 (.inl ?_), fun v => ?_⟩
  · exact List.mem_filter.2 ⟨he, by simp [h1, h2]⟩
  · rw [h2, hnodes]
    refine ⟨fun h => h.elim id ?_, .inl⟩
    rintro ⟨⟨p, x⟩, he, hv⟩
    obtain ⟨c, _, hc⟩ := List.mem_flatMap.1 he
    obtain ⟨pre, post, h4, h5, _⟩ := DiGraph.mem_compEdges.1 hc
    have hsub : ∀ w ∈ order.filter (· ∈ c), w ∈ g.nodes ∧ w ∈ endo := fun w hw =>
      (hnodes w).1 (ho.perm.mem_iff.1 (List.mem_filter.1 hw).1)
    rcases hv with rfl | rfl
    · rcases h5 with h5 | h5
      · obtain ⟨_, h6, w, _, h7⟩ := DiGraph.mem_outerParents.1 h5
        exact ⟨(hg.ends _ h7).1, h6⟩
      · exact hsub _ (by rw [h4]; simp [h5])
    · exact hsub _ (by rw [h4]; simp)

/-- **C67** (partly): the decomposition graph is acyclic when, in the topological order used, the endogenous
parents that a component has outside come before the members of the component of which they are not descendants.
The property claims this for all models; `C67_cyclic` refutes it. -/
theorem C67_acyclic_partial {g : DiGraph V} (hg : g.WF) {endo order : List V} (ho : TopoOrder (g.endoGraph endo) order)
    (h : ∀ c ∈ g.endoCComponents endo, ∀ p ∈ endo, p ∉ c → (∃ v ∈ c, (p, v) ∈ g.edges) → ∀ x ∈ c,
      ¬ TransGen (g.endoGraph endo).Edge x p → Before order p x) :
    (g.qgraph endo order).Acyclic := by
  have hw : (g.endoGraph endo).WF := hg.subgraph endo
  have hn : order.Nodup := ho.perm.nodup_iff.2 hw.nodes
  have step : ∀ p x, (g.qgraph endo order).Edge p x → order.idxOf p < order.idxOf x := by
    intro p x hpx
    rcases ((DiGraph.foldl_qgraph hg endo order).2.2 (p, x)).1 hpx with he | he
    · have hx : x ∈ order := ho.perm.mem_iff.2 (hw.ends _ he).2
      obtain ⟨pre, post, e⟩ := List.append_of_mem hx
      exact Before.idx hn ⟨pre, post, e, ho.sorted pre x post e p he⟩
    · obtain ⟨c, hc, hce⟩ := List.mem_flatMap.1 he
      obtain ⟨pre, post, h4, h5, h6⟩ := DiGraph.mem_compEdges.1 hce
      rcases h5 with h5 | h5
      · obtain ⟨hpc, hpe, v, hv, hpv⟩ := DiGraph.mem_outerParents.1 h5
        have hxf : x ∈ order.filter (· ∈ c) := by rw [h4]; simp
        have hpo : p ∈ order := ho.perm.mem_iff.2 (List.mem_filter.2 ⟨(hg.ends _ hpv).1, by simpa using hpe⟩)
        have hpc' : p ∉ c := fun hp => hpc (List.mem_filter.2 ⟨hpo, by simpa using hp⟩)
        have hxc : x ∈ c := by simpa using (List.mem_filter.1 hxf).2
        refine Before.idx hn (h c hc p hpe hpc' ⟨v, by simpa using (List.mem_filter.1 hv).2, hpv⟩ x hxc fun ht => h6 ?_)
        have hne : p ≠ x := fun e => hpc' (e ▸ hxc)
        rw [List.mem_erase_of_ne hne, DiGraph.mem_reach hw (ho.perm.mem_iff.1 (List.mem_filter.1 hxf).1)]
        exact ht.to_reflTransGen
      · exact Before.idx hn (Before.of_filter ⟨pre, post, h4, h5⟩)
  intro v hv
  have : ∀ w, TransGen (g.qgraph endo order).Edge v w → order.idxOf v < order.idxOf w := by
    intro w ht
    induction ht with
    | single h => exact step _ _ h
    | tail _ h ih => exact ih.trans (step _ _ h)
  exact absurd (this v hv) (lt_irrefl _)

/-- **C67** (partly): in particular for Markovian models, in which no exogenous variable has two endogenous children. -/
theorem C67_markovian_partial {g : DiGraph V} (hg : g.WF) {endo order : List V} (ho : TopoOrder (g.endoGraph endo) order)
    (hroot : ∀ e ∈ g.edges, e.2 ∈ endo) (hm : ∀ u x y, u ∉ endo → (u, x) ∈ g.edges → (u, y) ∈ g.edges → x = y) :
    (g.qgraph endo order).Acyclic := by
  refine C67_acyclic_partial hg ho fun c hc p hpe hpc hv x hx _ => ?_
  obtain ⟨v, hvc, hpv⟩ := hv
  have hvx : v = x := by
    have key : ∀ w, ReflTransGen (Confounded g endo) v w → v = w := by
      intro w hw
      induction hw with
      | refl => rfl
      | tail _ hbw ih =>
        obtain ⟨_, _, u, hu, h1, h2⟩ := hbw
        exact ih.trans (hm u _ _ hu h1 h2)
    exact key x (C66_minimal hroot hc hvc hx)
  subst hvx
  have hve : v ∈ endo := hroot _ hpv
  have hvo : v ∈ order := ho.perm.mem_iff.2 (List.mem_filter.2 ⟨(hg.ends _ hpv).2, by simpa using hve⟩)
  obtain ⟨pre, post, e⟩ := List.append_of_mem hvo
  refine ⟨pre, post, e, ho.sorted pre v post e p (List.mem_filter.2 ⟨hpv, by simp [hpe, hve]⟩)⟩

end

/-- Two confounded pairs, `X, Y` and `P, Q`, with `P → Y` and `X → Q`. -/
def gCross : DiGraph Char :=
  ⟨['U', 'W', 'X', 'Y', 'P', 'Q'], [('U', 'X'), ('U', 'Y'), ('W', 'P'), ('W', 'Q'), ('P', 'Y'), ('X', 'Q')]⟩

def endoCross : List Char := ['X', 'Y', 'P', 'Q']

theorem C66_example : gCross.endoCComponents endoCross = [['X', 'Y'], ['P', 'Q']] := by decide +kernel

theorem gCross_wf : gCross.WF := ⟨by decide, by decide, by decide⟩

/-- C67 does not hold in general: whatever topological order is used, the decomposition graph of `gCross`, which is
acyclic and in which exogenous variables are roots, has the edges `P → X` and `X → P`, so that the
network of the decomposition cannot be built. -/
theorem C67_cyclic : gCross.Acyclic ∧ (∀ e ∈ gCross.edges, e.2 ∈ endoCross) ∧
    ∀ order, TopoOrder (gCross.endoGraph endoCross) order → ¬ (gCross.qgraph endoCross order).Acyclic ∧
      ∀ {F : Type} [FactorLike F Char Char] (check : Bool),
        (DagModel.init (gCross.qgraph endoCross order) check : Py (DagModel F Char Char)) = .error .valueError := by
  refine ⟨(DiGraph.hasCycle_iff gCross_wf).1 (by decide +kernel), by decide, fun order ho => ?_⟩
  have hmem : ∀ v ∈ endoCross, v ∈ order := fun v hv => ho.perm.mem_iff.2 (by revert v; decide)
  have edge : ∀ c ∈ gCross.endoCComponents endoCross, ∀ x ∈ c, x ∈ endoCross → ∀ p ∈ endoCross, p ∉ c →
      (∃ v ∈ c, v ∈ endoCross ∧ (p, v) ∈ gCross.edges) → p ∉ ((gCross.endoGraph endoCross).reach x).erase x →
      (p, x) ∈ (gCross.qgraph endoCross order).edges := by
    intro c hc x hx hxe p hp hpc hv hr
    refine ((DiGraph.foldl_qgraph gCross_wf endoCross order).2.2 (p, x)).2 (.inr ?_)
    obtain ⟨pre, post, e⟩ := List.append_of_mem (List.mem_filter.2 ⟨hmem x hxe, by simpa using hx⟩ : x ∈ order.filter (· ∈ c))
    refine List.mem_flatMap.2 ⟨c, hc, DiGraph.mem_compEdges.2 ⟨pre, post, e, .inl ?_, hr⟩⟩
    obtain ⟨v, hv1, hv2, hv3⟩ := hv
    exact DiGraph.mem_outerParents.2 ⟨fun h => hpc (by simpa using (List.mem_filter.1 h).2), hp, v,
      List.mem_filter.2 ⟨hmem v hv2, by simpa using hv1⟩, hv3⟩
  rw [C66_example] at edge
  have h1 : ('P', 'X') ∈ (gCross.qgraph endoCross order).edges :=
    edge ['X', 'Y'] (by decide) 'X' (by decide) (by decide) 'P' (by decide) (by decide) ⟨'Y', by decide, by decide, by decide⟩
      (by decide +kernel)
  have h2 : ('X', 'P') ∈ (gCross.qgraph endoCross order).edges :=
    edge ['P', 'Q'] (by decide) 'P' (by decide) (by decide) 'X' (by decide) (by decide) ⟨'Q', by decide, by decide, by decide⟩
      (by decide +kernel)
  have hc : ¬ (gCross.qgraph endoCross order).Acyclic := fun h => h 'P' (.tail (.single h1) h2)
  refine ⟨hc, fun {F} _ check => ?_⟩
  rw [DagModel.init, if_pos]
  by_contra hf
  exact hc ((DiGraph.hasCycle_iff (DiGraph.foldl_qgraph gCross_wf endoCross order).1).1 (by simpa using hf))

/-- An endogenous variable without exogenous parent is in no component: `U → X → Z`. -/
theorem C66_omitted : (⟨['U', 'X', 'Z'], [('U', 'X'), ('X', 'Z')]⟩ : DiGraph Char).endoCComponents ['X', 'Z'] = [['X']] := by
  decide +kernel

/-- The hypotheses of `C67_acyclic_partial` can be met with a confounded pair: `U → X, U → Y, P → X, X → Y`. -/
def gBow : DiGraph Char := ⟨['U', 'P', 'X', 'Y'], [('U', 'X'), ('U', 'Y'), ('P', 'X'), ('X', 'Y')]⟩

example : gBow.endoCComponents ['P', 'X', 'Y'] = [['X', 'Y']] ∧
    gBow.qgraph ['P', 'X', 'Y'] ['P', 'X', 'Y'] = ⟨['P', 'X', 'Y'], [('P', 'X'), ('X', 'Y'), ('P', 'Y')]⟩ := by
  decide +kernel

theorem gBow_wf : gBow.WF := ⟨by decide, by decide, by decide⟩

theorem gBow_topo : TopoOrder (gBow.endoGraph ['P', 'X', 'Y']) ['P', 'X', 'Y'] := by
  refine ⟨by decide, fun pre v post e p hp => ?_⟩
  have hp' : (p, v) = ('P', 'X') ∨ (p, v) = ('X', 'Y') := by
    have : (p, v) ∈ [('P', 'X'), ('X', 'Y')] := hp
    simpa using this
  match pre, e with
  | [], e => simp at e; rcases hp' with h | h <;> simp at h <;> simp_all
  | [a], e =>
    simp at e
    rcases hp' with h | h <;> simp at h <;> obtain ⟨rfl, rfl⟩ := h <;> simp [← e.1, ← e.2.1] at e ⊢
  | [a, b], e =>
    simp at e
    rcases hp' with h | h <;> simp at h <;> obtain ⟨rfl, rfl⟩ := h <;> simp [← e.1, ← e.2.1] at e ⊢
  | a :: b :: c :: l, e => simp at e

example : (gBow.qgraph ['P', 'X', 'Y'] ['P', 'X', 'Y']).Acyclic := by
  refine C67_acyclic_partial gBow_wf gBow_topo fun c hc p hp hpc _ x hx _ => ?_
  rw [show gBow.endoCComponents ['P', 'X', 'Y'] = [['X', 'Y']] by decide +kernel, List.mem_singleton] at hc
  subst hc
  have hpP : p = 'P' := by simp at hp hpc; rcases hp with h | h | h <;> simp_all
  subst hpP
  simp only [List.mem_cons, List.not_mem_nil, or_false] at hx
  rcases hx with rfl | rfl
  · exact ⟨['P'], ['Y'], rfl, by simp⟩
  · exact ⟨['P', 'X'], [], rfl, by simp⟩

end Verif.Props
