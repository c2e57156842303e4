import Verif.Model.Relabel
import Verif.Net.Glue

/-!
# Fusion of models on their root nodes: helper lemmas
-/

set_option linter.unusedSectionVars false
set_option linter.unusedSimpArgs false

namespace Verif

/-! ### Graphs -/

namespace DiGraph
variable {V : Type} [DecidableEq V]

theorem addNode_mem {g : DiGraph V} {v w : V} : w ∈ (g.addNode v).nodes ↔ w ∈ g.nodes ∨ w = v := by
  rw [addNode]; split
  · rename_i h; constructor
    · exact .inl
    · rintro (h' | rfl)
      · exact h'
      · exact h
  · simp

theorem addNode_edges {g : DiGraph V} {v : V} : (g.addNode v).edges = g.edges := by
  rw [addNode]; split <;> rfl

theorem WF.addNode {g : DiGraph V} (h : g.WF) (v : V) : (g.addNode v).WF := by
  rw [DiGraph.addNode]; split
  · exact h
  · rename_i hv
    exact ⟨by simpa [List.nodup_append', h.nodes] using hv, h.edges, fun e he => ⟨by simp [(h.ends e he).1], by simp [(h.ends e he).2]⟩⟩

theorem addEdge_mem {g : DiGraph V} {x y w : V} : w ∈ (g.addEdge x y).nodes ↔ w ∈ g.nodes ∨ w = x ∨ w = y := by
  rw [addEdge]
  split <;> simp only [addNode_mem, or_assoc]

theorem addEdge_edges {g : DiGraph V} {x y : V} {e : V × V} : e ∈ (g.addEdge x y).edges ↔ e ∈ g.edges ∨ e = (x, y) := by
  rw [addEdge]
  simp only [addNode_edges]
  split
  · rename_i h
    rw [addNode_edges, addNode_edges]
    constructor
    · exact .inl
    · rintro (h' | rfl)
      · exact h'
      · exact h
  · simp

theorem WF.addEdge {g : DiGraph V} (h : g.WF) (x y : V) : (g.addEdge x y).WF := by
  have h2 := (h.addNode x).addNode y
  rw [DiGraph.addEdge]
  split
  · exact h2
  · rename_i hn
    refine ⟨h2.nodes, ?_, ?_⟩
    · rw [List.nodup_append']
      exact ⟨h2.edges, by simp, fun e he he' => hn (by rw [← List.mem_singleton.1 he']; exact he)⟩
    · intro e he
      rcases List.mem_append.1 he with he | he
      · exact h2.ends e he
      · rw [List.mem_singleton.1 he]
        exact ⟨by simp only [addNode_mem]; simp, by simp only [addNode_mem]; simp⟩

theorem foldl_addEdge {es : List (V × V)} {g : DiGraph V} (h : g.WF) :
    (es.foldl (fun g e => g.addEdge e.1 e.2) g).WF ∧
    (∀ w, w ∈ (es.foldl (fun g e => g.addEdge e.1 e.2) g).nodes ↔ w ∈ g.nodes ∨ ∃ e ∈ es, w = e.1 ∨ w = e.2) ∧
    ∀ e, e ∈ (es.foldl (fun g e => g.addEdge e.1 e.2) g).edges ↔ e ∈ g.edges ∨ e ∈ es := by
  induction es generalizing g with
  | nil => simpa using h
  | cons e es ih =>
    rw [List.foldl_cons]
    obtain ⟨h1, h2, h3⟩ := ih (h.addEdge e.1 e.2)
    refine ⟨h1, fun w => ?_, fun e' => ?_⟩
    · rw [h2, addEdge_mem]
      simp [or_assoc]
    · rw [h3, addEdge_edges]
      simp [or_assoc]

theorem foldl_addNode {vs : List V} {g : DiGraph V} (h : (g.nodes ++ vs).Nodup) :
    vs.foldl (fun g v => g.addNode v) g = ⟨g.nodes ++ vs, g.edges⟩ := by
  induction vs generalizing g with
  | nil => simp
  | cons v vs ih =>
    have hv : v ∉ g.nodes := fun hc => (List.nodup_append'.1 h).2.2 hc List.mem_cons_self
    have he : g.addNode v = ⟨g.nodes ++ [v], g.edges⟩ := by rw [addNode, if_neg hv]
    rw [List.foldl_cons, he, ih (by simpa using h)]
    simp

end DiGraph

variable {V S K : Type} [DecidableEq V] [DecidableEq S] [Inhabited S] [Field K] [LinearOrder K] {vt : VType}

local notation "II" => (storeOf vt : StoreImpl V S (Fl K))
local notation "LL" => (labelStoreOf vt : LabelStore V S)

/-- The table of a node only depends on the node, its parents and their states. -/
theorem AnyTable.congr {B B' : BN V S K} {v : V} {f : AnyFactor II LL} (h : AnyTable B v f) (hp : B'.parents v = B.parents v)
    (hs : ∀ w, w = v ∨ w ∈ B.parents v → B'.states w = B.states w) (ht : B'.table v = B.table v) : AnyTable B' v f := by
  cases f with
  | multi g =>
    have h : IsTable B v g := h
    exact ⟨h.wf, h.left, by rw [hp]; exact h.right, by rw [hp]; exact h.vars,
      fun p hpd => by rw [h.dom p hpd, hs p.1 ((h.vars p.1).1 (Dict.mem_keys_of_mem hpd))], by rw [ht]; exact h.value⟩
  | det g =>
    have h : DetTable B v g := h
    exact ⟨h.wf, h.left, by rw [hp]; exact h.right, by rw [hp]; exact h.vars,
      fun p hpd => by rw [h.dom p hpd, hs p.1 ((h.vars p.1).1 (Dict.mem_keys_of_mem hpd))], by rw [ht]; exact h.value⟩

namespace SCM

/-- The factors of some of the nodes. -/
theorem Rep.getFactors {m : SCM II LL} {B : BN V S K} (h : m.Rep B) {vs : List V} (hv : ∀ v ∈ vs, v ∈ B.nodes) :
    ∃ l : List (V × AnyFactor II LL), m.getFactors vs = .ok (l.map fun p => some p.2) ∧ Dict.keys l = vs ∧
      (∀ p ∈ l, AnyTable B p.1 p.2) ∧ ∀ p ∈ l, Dict.get? m.base.factors p.1 = some (some p.2) := by
  induction vs with
  | nil => exact ⟨[], rfl, rfl, by simp, by simp⟩
  | cons v vs ih =>
    obtain ⟨l, h1, h2, h3, h4⟩ := ih fun w hw => hv w (List.mem_cons_of_mem _ hw)
    obtain ⟨f, hf, ht⟩ := h.table v (hv v List.mem_cons_self)
    refine ⟨(v, f) :: l, ?_, by simp [h2], ?_, ?_⟩
    · rw [SCM.getFactors, List.mapM_cons, Dict.get, hf]
      rw [SCM.getFactors] at h1
      rw [h1]; rfl
    · intro p hp
      rcases List.mem_cons.1 hp with rfl | hp
      · exact ht
      · exact h3 p hp
    · intro p hp
      rcases List.mem_cons.1 hp with rfl | hp
      · exact hf
      · exact h4 p hp

theorem getFactors_models {setOrd : List V → List V} (hord : ∀ l, (setOrd l).Nodup ∧ ∀ v, v ∈ setOrd l ↔ v ∈ l) {on : List V}
    {ms : List (SCM II LL)} {Bs : List (BN V S K)} (h : List.Forall₂ SCM.Rep ms Bs) :
    ∃ ls : List (List (V × AnyFactor II LL)),
      ms.mapM (fun m => m.getFactors (setOrd (m.base.graph.nodes.filter (· ∉ on)))) = .ok (ls.map fun l => l.map fun p => some p.2) ∧
      (∀ l ∈ ls, ∃ m ∈ ms, ∃ B ∈ Bs, m.Rep B ∧ (∀ v, v ∈ Dict.keys l ↔ v ∈ B.nodes ∧ v ∉ on) ∧ (∀ p ∈ l, AnyTable B p.1 p.2) ∧
        ∀ p ∈ l, Dict.get? m.base.factors p.1 = some (some p.2)) ∧
      ((∀ B ∈ Bs, B.nodes.Nodup) → (Bs.flatMap fun B => B.nodes.filter (· ∉ on)).Perm (Dict.keys ls.flatten)) := by
  induction h with
  | nil => exact ⟨[], rfl, by simp, fun _ => by simp [Dict.keys]⟩
  | @cons m B ms Bs hr _ ih =>
    obtain ⟨ls, h1, h2, h3⟩ := ih
    have ho := hord (m.base.graph.nodes.filter (· ∉ on))
    have hk : ∀ v, v ∈ setOrd (m.base.graph.nodes.filter (· ∉ on)) ↔ v ∈ B.nodes ∧ v ∉ on := by
      intro v; rw [ho.2, List.mem_filter, hr.nodes]; simp
    obtain ⟨l, g1, g2, g3, g4⟩ := hr.getFactors (vs := setOrd (m.base.graph.nodes.filter (· ∉ on))) fun v hv => ((hk v).1 hv).1
    refine ⟨l :: ls, ?_, ?_, fun hn => ?_⟩
    · rw [List.mapM_cons, g1, h1]; rfl
    · intro l' hl'
      rcases List.mem_cons.1 hl' with rfl | hl'
      · exact ⟨m, List.mem_cons_self, B, List.mem_cons_self, hr, fun v => by rw [g2]; exact hk v, g3, g4⟩
      · obtain ⟨m', hm', B', hB', hh⟩ := h2 l' hl'
        exact ⟨m', List.mem_cons_of_mem _ hm', B', List.mem_cons_of_mem _ hB', hh⟩
    · rw [List.flatMap_cons, List.flatten_cons, Dict.keys_append]
      refine List.Perm.append ?_ (h3 fun B hB => hn B (List.mem_cons_of_mem _ hB))
      rw [g2, List.perm_ext_iff_of_nodup ((hn B List.mem_cons_self).filter _) ho.1]
      intro v; rw [hk, List.mem_filter]; simp

/-- The graph of the fused model -/
def fusedGraph {I : StoreImpl V S (Fl K)} {L : LabelStore V S} (m0 : SCM I L) (ms : List (SCM I L)) : DiGraph V :=
  ((m0 :: ms).flatMap fun m => m.base.graph.edges).foldl (fun g e => g.addEdge e.1 e.2)
    (m0.base.graph.nodes.foldl (fun g v => g.addNode v) DiGraph.empty)

theorem fusedGraph_spec {m0 : SCM II LL} (ms : List (SCM II LL)) (hw : m0.base.graph.WF) :
    (fusedGraph m0 ms).WF ∧
    (∀ w, w ∈ (fusedGraph m0 ms).nodes ↔ w ∈ m0.base.graph.nodes ∨ ∃ m ∈ ms, ∃ e ∈ m.base.graph.edges, w = e.1 ∨ w = e.2) ∧
    ∀ e, e ∈ (fusedGraph m0 ms).edges ↔ ∃ m ∈ m0 :: ms, e ∈ m.base.graph.edges := by
  have h0 : m0.base.graph.nodes.foldl (fun g v => g.addNode v) DiGraph.empty = ⟨m0.base.graph.nodes, []⟩ := by
    rw [DiGraph.foldl_addNode (by simpa [DiGraph.empty] using hw.nodes)]; rfl
  have hwf : (⟨m0.base.graph.nodes, []⟩ : DiGraph V).WF := ⟨hw.nodes, .nil, by simp⟩
  obtain ⟨h1, h2, h3⟩ := DiGraph.foldl_addEdge (es := (m0 :: ms).flatMap fun m => m.base.graph.edges) hwf
  rw [fusedGraph, h0]
  refine ⟨h1, fun w => ?_, fun e => ?_⟩
  · rw [h2]
    constructor
    · rintro (h | ⟨e, he, h⟩)
      · exact .inl h
      · obtain ⟨m, hm, he'⟩ := List.mem_flatMap.1 he
        rcases List.mem_cons.1 hm with rfl | hm
        · left
          rcases h with rfl | rfl
          · exact (hw.ends e he').1
          · exact (hw.ends e he').2
        · exact .inr ⟨m, hm, e, he', h⟩
    · rintro (h | ⟨m, hm, e, he, h⟩)
      · exact .inl h
      · exact .inr ⟨e, List.mem_flatMap.2 ⟨m, List.mem_cons_of_mem _ hm, he⟩, h⟩
  · rw [h3, List.mem_flatMap]
    simp

theorem forall₂_mem {ms : List (SCM II LL)} {Bs : List (BN V S K)} (h : List.Forall₂ SCM.Rep ms Bs) :
    (∀ m ∈ ms, ∃ B ∈ Bs, m.Rep B) ∧ ∀ B ∈ Bs, ∃ m ∈ ms, m.Rep B := by
  induction h with
  | nil => simp
  | cons hr _ ih =>
    refine ⟨fun m hm => ?_, fun B hB => ?_⟩
    · rcases List.mem_cons.1 hm with rfl | hm
      · exact ⟨_, List.mem_cons_self, hr⟩
      · obtain ⟨B, hB, h⟩ := ih.1 m hm
        exact ⟨B, List.mem_cons_of_mem _ hB, h⟩
    · rcases List.mem_cons.1 hB with rfl | hB
      · exact ⟨_, List.mem_cons_self, hr⟩
      · obtain ⟨m, hm, h⟩ := ih.2 B hB
        exact ⟨m, List.mem_cons_of_mem _ hm, h⟩

/-- `fusion_roots` -/
theorem fusion_ok {setOrd : List V → List V} (hord : ∀ l, (setOrd l).Nodup ∧ ∀ v, v ∈ setOrd l ↔ v ∈ l) {m0 : SCM II LL}
    {ms : List (SCM II LL)} {B0 : BN V S K} {Bs : List (BN V S K)} (h : List.Forall₂ SCM.Rep (m0 :: ms) (B0 :: Bs)) {on : List V}
    (hg : BN.GlueOk B0 Bs on (fusedGraph m0 ms).nodes) {endo : List V} (hne : endo = [] → (fusedGraph m0 ms).edges = [])
    (heq : ∀ v ∈ endo, v ∈ (fusedGraph m0 ms).nodes → ∀ a, (BN.glue B0 Bs (fusedGraph m0 ms).nodes).InStates a →
      (BN.glue B0 Bs (fusedGraph m0 ms).nodes).table v a = 0 ∨ (BN.glue B0 Bs (fusedGraph m0 ms).nodes).table v a = 1) :
    ∃ m', fusionRoots setOrd (m0 :: ms) on endo = .ok m' ∧ m'.Rep (BN.glue B0 Bs (fusedGraph m0 ms).nodes) ∧
      m'.base.graph = fusedGraph m0 ms ∧ m'.endogenous = endo ∧ m'.cast = m0.cast ∧
      ((∀ m ∈ m0 :: ms, m.Multi) → m'.Multi) := by
  have hr0 : m0.Rep B0 := (List.forall₂_cons.1 h).1
  obtain ⟨w1, w2, w3⟩ := fusedGraph_spec ms hr0.wf
  obtain ⟨hBm, hmB⟩ := forall₂_mem h
  -- the check that the shared nodes are roots
  have hroots : (on.zip (m0 :: ms)).mapM (fun p => do
      let pa ← p.2.base.graph.predecessors p.1
      return pa.length == 0) = .ok ((on.zip (m0 :: ms)).map fun _ => true) := by
    refine mapM_ok fun p hp => ?_
    obtain ⟨hu, hm⟩ := List.of_mem_zip hp
    obtain ⟨B, hB, hr⟩ := hBm p.2 hm
    obtain ⟨s1, s2, _⟩ := hg.shared B hB p.1 hu
    rw [DiGraph.predecessors, if_pos (by rw [hr.nodes]; exact s1)]
    have : p.2.base.graph.pred p.1 = [] := by
      rw [List.eq_nil_iff_forall_not_mem]
      intro x hx
      have := (hr.parents p.1 s1 x).2 (DiGraph.mem_pred.1 hx)
      rw [s2] at this; cases this
    rw [this]; rfl
  obtain ⟨l0, a1, a2, a3, a4⟩ := hr0.getFactors (vs := on) fun u hu => (hg.shared B0 List.mem_cons_self u hu).1
  obtain ⟨ls, b1, b2, b3⟩ := getFactors_models hord (on := on) h
  have b3 := b3 fun B hB => (hg.valid B hB).nodes
  let B' := BN.glue B0 Bs (fusedGraph m0 ms).nodes
  have hpar : ∀ v ∈ B'.nodes, ∀ p, p ∈ B'.parents v ↔ (p, v) ∈ (fusedGraph m0 ms).edges := by
    intro v hv p
    rw [w3]
    constructor
    · intro hp
      obtain ⟨B, hB, hvB⟩ := (hg.mem v).1 hv
      obtain ⟨m, hm, hr⟩ := hmB B hB
      refine ⟨m, hm, (hr.parents v hvB p).1 ?_⟩
      rw [← hg.parents_eq hB hvB]; exact hp
    · rintro ⟨m, hm, he⟩
      obtain ⟨B, hB, hr⟩ := hBm m hm
      have hvB : v ∈ B.nodes := by rw [← hr.nodes]; exact (hr.wf.ends _ he).2
      show p ∈ B'.parents v
      rw [hg.parents_eq hB hvB]
      exact (hr.parents v hvB p).2 he
  have hstates : ∀ B ∈ B0 :: Bs, ∀ v ∈ B.nodes, ∀ w, w = v ∨ w ∈ B.parents v → B'.states w = B.states w := by
    intro B hB v hv w hw
    refine hg.states_eq hB ?_
    rcases hw with rfl | hw
    · exact hv
    · exact (hg.valid B hB).parents v hv w hw
  have hl0 : ∀ p ∈ l0, p.1 ∈ on := fun p hp => by rw [← a2]; exact Dict.mem_keys_of_mem hp
  obtain ⟨_, e2, e3⟩ := rep_built (B := B') hg.glueValid w1 rfl hpar (l := l0 ++ ls.flatten) (by
      rw [Dict.keys_append, a2]
      exact ((hg.perm).trans (b3.append_left on)).symm)
    (fun p hp => by
      rcases List.mem_append.1 hp with hp | hp
      · have hs := hg.shared B0 List.mem_cons_self p.1 (hl0 p hp)
        exact (a3 p hp).congr (hg.parents_eq List.mem_cons_self hs.1) (hstates B0 List.mem_cons_self p.1 hs.1) (hg.table_on (hl0 p hp))
      · obtain ⟨l, hl, hp⟩ := List.mem_flatten.1 hp
        obtain ⟨m, _, B, hB, _, c2, c3, _⟩ := b2 l hl
        have hpk := (c2 p.1).1 (Dict.mem_keys_of_mem hp)
        exact (c3 p hp).congr (hg.parents_eq hB hpk.1) (hstates B hB p.1 hpk.1) (hg.table_eq hB hpk.1 hpk.2))
    (some endo) m0.cast true (by rw [endoOr_some hne]; exact heq) rfl
  refine ⟨_, ?_, e3, rfl, endoOr_some hne, rfl, fun hmu => multi_built fun p hp => ?_⟩
  · rw [fusionRoots, hroots]
    simp only [py_ok_bind]
    have : ((on.zip (m0 :: ms)).map fun _ => true).all id = true := by simp
    rw [this]
    simp only [Bool.not_true, Bool.false_eq_true, if_false]
    show (do
      let f0 ← m0.getFactors on
      let fs ← (m0 :: ms).mapM fun m : SCM II LL => m.getFactors (setOrd (m.base.graph.nodes.filter (· ∉ on)))
      ofList (fusedGraph m0 ms) (f0 ++ fs.flatten) (some endo) m0.cast true) = _
    rw [a1, b1]
    simp only [py_ok_bind]
    have : (l0.map fun p => some p.2) ++ (ls.map fun l => l.map fun p => some p.2).flatten = (l0 ++ ls.flatten).map fun p => some p.2 := by
      rw [List.map_append, List.map_flatten]
    rw [this]
    exact e2
  · rcases List.mem_append.1 hp with hp | hp
    · exact hmu m0 List.mem_cons_self p.1 p.2 (a4 p hp)
    · obtain ⟨l, hl, hp⟩ := List.mem_flatten.1 hp
      obtain ⟨m, hm, B, hB, _, c2, c3, c4⟩ := b2 l hl
      exact hmu m hm p.1 p.2 (c4 p hp)

end SCM
end Verif
