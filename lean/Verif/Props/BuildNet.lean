import Verif.Model.BuildNet
import Verif.Props.ExNet

/-!
# C93: every network can be built, and the object has its tables

The other theorems on networks speak of a model object that represents a network. Here it is shown that for every
network such an object is what the constructors return, and that an object represents one network only.
-/

set_option linter.unusedSectionVars false
set_option linter.unusedSimpArgs false

namespace Verif.Props
open Verif

section
variable {V S K : Type} [DecidableEq V] [DecidableEq S] [Inhabited S] [Field K] [LinearOrder K] {vt : VType}

/-- The constructors called with the tables of a network: one factor for each node in the given order, its values
listed in row-major order of the domain `d v`, then the model. -/
noncomputable def buildNet (vt : VType) (B : BN V S K) (g : DiGraph V) (d : V → Dom V S) (order : List V) (check : Bool) :
    Py (DagModel (Factor (storeOf vt : StoreImpl V S (Fl K))) V S) := do
  let fs ← order.mapM fun v => Factor.make (storeOf vt) (d v) (tableValues B v (d v)) (some [v]) none
  DagModel.ofList g fs check

/-- **C93** for every network, every order in which the variables of a table are listed and every order of the factors,
with or without checks: the constructors accept the tables, and the object has the graph and the tables of the network. -/
theorem C93_build {B : BN V S K} (hB : B.Valid) {g : DiGraph V} (hg : g.WF) (hnodes : g.nodes = B.nodes)
    (hpar : ∀ v ∈ B.nodes, ∀ p, p ∈ B.parents v ↔ (p, v) ∈ g.edges) {d : V → Dom V S} (hd : ∀ v ∈ B.nodes, TableDom B v (d v))
    {order : List V} (ho : order.Perm B.nodes) (check : Bool) :
    ∃ m, buildNet vt B g d order check = .ok m ∧ m.graph = g ∧ Represents m B := by
  obtain ⟨fs, m, h1, h2, h3, h4⟩ := build_net (storeOf_lawful vt) hB hg hnodes hpar hd ho check
  exact ⟨m, by rw [buildNet, h1, py_ok_bind, h2], h3, h4⟩

/-- The graph of a network. -/
def graphOf (B : BN V S K) : DiGraph V := ⟨B.nodes, B.nodes.flatMap fun v => (B.parents v).dedup.map fun p => (p, v)⟩

/-- The domain of a table with the node first. -/
def domOf (B : BN V S K) (v : V) : Dom V S := (v, B.states v) :: (B.parents v).dedup.map fun p => (p, B.states p)

/-- Every network is represented by an object that the constructors return. -/
theorem C93_exists (vt : VType) {B : BN V S K} (hB : B.Valid) :
    ∃ m, buildNet vt B (graphOf B) (domOf B) B.nodes true = .ok m ∧ m.graph = graphOf B ∧ Represents m B := by
  have hmem : ∀ p v, (p, v) ∈ (graphOf B).edges ↔ v ∈ B.nodes ∧ p ∈ B.parents v := by
    intro p v
    simp only [graphOf, List.mem_flatMap, List.mem_map, List.mem_dedup, Prod.mk.injEq]
    constructor
    · rintro ⟨w, hw, q, hq, rfl, rfl⟩; exact ⟨hw, hq⟩
    · rintro ⟨h1, h2⟩; exact ⟨v, h1, p, h2, rfl, rfl⟩
  refine C93_build hB ⟨hB.nodes, ?_, fun e he => ?_⟩ rfl (fun v hv p => ?_) (fun v hv => ?_) (List.Perm.refl _) true
  · refine List.nodup_flatMap.2 ⟨fun v _ => (List.nodup_dedup _).map fun p q h => (Prod.mk.inj h).1, ?_⟩
    refine hB.nodes.imp fun {v w} hvw => ?_
    intro e h1 h2
    obtain ⟨p, _, rfl⟩ := List.mem_map.1 h1
    obtain ⟨q, _, hq⟩ := List.mem_map.1 h2
    exact hvw (Prod.mk.inj hq).2.symm
  · obtain ⟨h1, h2⟩ := (hmem e.1 e.2).1 he
    exact ⟨hB.parents _ h1 _ h2, h1⟩
  · rw [hmem]; exact ⟨fun h => ⟨hv, h⟩, fun h => h.2⟩
  · have hvp : v ∉ B.parents v := fun hp => hB.acyclic v (.single ⟨hv, hp⟩)
    have hk : Dict.keys (domOf B v) = v :: (B.parents v).dedup := by simp [domOf, Dict.keys, Function.comp_def]
    refine ⟨?_, fun w => ?_, fun p hp => ?_⟩
    · rw [hk]; exact List.nodup_cons.2 ⟨by simpa using hvp, List.nodup_dedup _⟩
    · rw [hk]; simp
    · rcases List.mem_cons.1 hp with rfl | hp
      · rfl
      · obtain ⟨q, _, rfl⟩ := List.mem_map.1 hp; rfl

/-- An object represents one network: the nodes, the parents of each, the states and the probabilities are determined. -/
theorem C93_unique {F : Type} [VEFactor F (storeOf vt : StoreImpl V S (Fl K))] {m : DagModel F V S} {B B' : BN V S K} (h : Represents m B)
    (h' : Represents m B') (hB : B.Valid) (hB' : B'.Valid) : B.nodes = B'.nodes ∧
      ∀ v ∈ B.nodes, (∀ p, p ∈ B.parents v ↔ p ∈ B'.parents v) ∧ B.states v = B'.states v ∧
        ∀ a, B.InStates a → B.table v a = B'.table v a := by
  have hn : B.nodes = B'.nodes := h.nodes.symm.trans h'.nodes
  refine ⟨hn, fun v hv => ?_⟩
  obtain ⟨f, g, h1, h2, h3⟩ := h.table v hv
  obtain ⟨f', g', k1, k2, k3⟩ := h'.table v (hn ▸ hv)
  rw [h1] at k1
  injection k1 with k1
  injection k1 with k1
  subst k1
  rw [h2] at k2
  injection k2 with k2
  subst k2
  refine ⟨fun p => by rw [h.parents v hv, h'.parents v (hn ▸ hv)], ?_, fun a ha => ?_⟩
  · obtain ⟨st, hst⟩ := Dict.mem_keys.1 ((h3.vars v).2 (.inl rfl))
    have e1 : st = B.states v := h3.dom _ hst
    have e2 : st = B'.states v := k3.dom _ hst
    exact e1.symm.trans e2
  · have hf : FullObs g.dom (g.dom.map fun p => (p.1, a p.1)) := by
      intro p hp
      have hdn := (h3.wf.domOk (storeOf_lawful vt)).keys
      refine ⟨a p.1, ?_, Dict.get?_of_mem (by rw [Dict.keys, List.map_map]; exact hdn) (List.mem_map.2 ⟨p, hp, rfl⟩)⟩
      rw [h3.dom p hp]
      refine ha _ ?_
      rcases (h3.vars p.1).1 (Dict.mem_keys_of_mem hp) with e | e
      · rw [e]; exact hv
      · exact hB.parents v hv _ e
    have e1 := h3.value _ hf
    rw [k3.value _ hf] at e1
    injection e1 with e1
    injection e1 with e1
    have hdn := (h3.wf.domOk (storeOf_lawful vt)).keys
    have ea : ∀ w ∈ g.vars, asg (g.dom.map fun p => (p.1, a p.1)) w = a w := fun w hw => asg_record hdn a hw
    rw [← hB.scope v hv (asg (g.dom.map fun p => (p.1, a p.1))) a fun w hw => ea w ((h3.vars w).2 (List.mem_cons.1 hw)),
      ← hB'.scope v (hn ▸ hv) (asg (g.dom.map fun p => (p.1, a p.1))) a fun w hw => ea w ((k3.vars w).2 (List.mem_cons.1 hw))]
    exact e1.symm

end

/-- A network with two nodes, the first the parent of the second, over any field: the first is `true` with probability
`1/3`; the second is `true` with probability `1/2` after `true` and never after `false`. -/
def pairNet (K : Type) [Field K] : BN Bool Bool K where
  nodes := [false, true]
  parents v := if v then [false] else []
  states _ := [false, true]
  table v a := if v then (if a false then 1 / 2 else if a true then 0 else 1) else if a false then 1 / 3 else 2 / 3

theorem pairNet_valid (K : Type) [Field K] : (pairNet K).Valid where
  nodes := by simp [pairNet]
  parents v _ p hp := by cases v <;> simp [pairNet] at hp ⊢
  acyclic v h := by
    have key : ∀ a b, Relation.TransGen (fun u w => w ∈ (pairNet K).nodes ∧ u ∈ (pairNet K).parents w) a b → a = false ∧ b = true := by
      intro a b h
      induction h with
      | single h => rename_i b; cases b <;> simp [pairNet] at h; exact ⟨h, rfl⟩
      | tail _ h ih => rename_i c _; cases c <;> simp [pairNet] at h; exact ⟨ih.1, rfl⟩
    obtain ⟨h1, h2⟩ := key v v h
    rw [h1] at h2; cases h2
  nodupStates _ _ := by simp [pairNet]
  nonempty _ _ := by simp [pairNet]
  scope v _ a b h := by
    cases v
    · have := h false (by simp); simp [pairNet, this]
    · have h1 := h false (by simp [pairNet]); have h2 := h true (by simp); simp [pairNet, h1, h2]

theorem pairNet_normalised (K : Type) [Field K] [LinearOrder K] [IsStrictOrderedRing K] : (pairNet K).Normalised := by
  intro v _ a _
  cases v
  · simp [pairNet, upd]; norm_num
  · cases h : a false <;> simp [pairNet, upd, h]; norm_num

theorem pairNet_nonneg (K : Type) [Field K] [LinearOrder K] [IsStrictOrderedRing K] : (pairNet K).NonNeg := by
  intro v _ a _
  simp only [pairNet]
  split_ifs <;> norm_num

/-- The hypotheses of `C93_build` can be met: a network of two nodes over any ordered field. -/
theorem C93_example (vt : VType) (K : Type) [Field K] [LinearOrder K] [IsStrictOrderedRing K] :
    ∃ m, buildNet vt (pairNet K) (graphOf (pairNet K)) (domOf (pairNet K)) (pairNet K).nodes true = .ok m ∧
      m.graph = ⟨[false, true], [(false, true)]⟩ ∧ Represents m (pairNet K) := by
  obtain ⟨m, h1, h2, h3⟩ := C93_exists vt (pairNet_valid K)
  exact ⟨m, h1, by rw [h2]; simp [graphOf, pairNet], h3⟩

end Verif.Props
