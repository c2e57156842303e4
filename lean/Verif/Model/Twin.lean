import Verif.Net.Worlds
import Verif.Model.Fusion
import Verif.Inference.Causal

/-!
# The model of a counterfactual query: helper lemmas
-/

set_option linter.unusedSectionVars false
set_option linter.unusedSimpArgs false

namespace Verif

variable {V S K : Type} [DecidableEq V] [DecidableEq S] [Inhabited S] [Field K] [LinearOrder K] {vt : VType}

local notation "II" => (storeOf vt : StoreImpl V S (Fl K))
local notation "LL" => (labelStoreOf vt : LabelStore V S)

/-- `intervention` -/
theorem SCM.Rep.intervene {m : SCM II LL} {B : BN V S K} (h : m.Rep B) (hB : B.Valid) {d : Obs V S} (hd : B.DoOk d) :
    ∃ m', m.intervention d = .ok m' ∧ m'.Rep (B.doBN d) ∧ m'.base.graph = m.base.graph.removeIngoing (Dict.keys d) ∧
      m'.endogenous = m.endogenous ∧ m'.cast = m.cast ∧ (m.Multi → m'.Multi) := by
  obtain ⟨l, hl, hk, ht⟩ := h.facs hB
  have hmem : ∀ p ∈ l, p.1 ∈ B.nodes := fun p hp => by rw [← hk]; exact Dict.mem_keys_of_mem hp
  obtain ⟨e1, r1⟩ := h.interv hB hl hk ht hd
  refine ⟨_, e1, r1, rfl, rfl, rfl, fun hmu => SCM.multi_after fun p' hp' => ?_⟩
  obtain ⟨p, hp, rfl⟩ := List.mem_map.1 hp'
  rw [show ((p.1, SCM.doFac d p) : V × AnyFactor II LL).2.isDet = p.2.isDet from (SCM.doFac_ok hd (hmem p hp) (ht p hp)).2.2]
  exact hmu p.1 p.2 (h.get_of_mem hB hl hk hp)

namespace Causal

/-- One world of a counterfactual query. -/
theorem world_ok {m : SCM II LL} {B : BN V S K} (h : m.Rep B) {sfx : V → Nat → V} {exo : List V} {dos : List (Obs V S)}
    (ht : B.TwinOk exo m.endogenous sfx dos) {p : Obs V S × Nat} (hp : p ∈ dos.zipIdx) :
    ∃ m', world sfx m p = .ok m' ∧ m'.Rep (B.twin m.endogenous sfx p) ∧
      (∀ e ∈ m.base.graph.edges, e.2 ∉ Dict.keys p.1 →
        (copyName sfx m.endogenous (p.2 + 1) e.1, copyName sfx m.endogenous (p.2 + 1) e.2) ∈ m'.base.graph.edges) ∧
      m'.endogenous = m.endogenous.map (fun v => sfx v (p.2 + 1)) ∧ m'.cast = m.cast ∧ (m.Multi → m'.Multi) := by
  obtain ⟨m1, e1, r1, g1, n1, c1, u1⟩ := h.intervene ht.valid (ht.doOk p.1 (mem_zipIdx hp).2.2)
  have hr : Factor.renameOne (m.endogenous.map fun v => (v, sfx v (p.2 + 1))) = copyName sfx m.endogenous (p.2 + 1) := renameOne_copy _ _ _
  obtain ⟨m2, e2, r2, g2, n2, c2, u2⟩ := r1.renameVars (ht.valid.doBN p.1) (mapping := m.endogenous.map fun v => (v, sfx v (p.2 + 1)))
    (by rw [hr]; exact ht.injOn hp)
    (by rw [n1]; exact fun v hv => ⟨by simpa [Dict.keys, Function.comp_def] using hv, ht.endo_nodes v hv⟩)
  rw [hr] at r2 g2 n2
  refine ⟨m2, ?_, r2, fun e he hd => ?_, ?_, c2.trans c1, fun hmu => u2 (u1 hmu)⟩
  · rw [world, e1, py_ok_bind]; exact e2
  · rw [g2, g1]
    exact List.mem_map.2 ⟨e, List.mem_filter.2 ⟨he, by simpa using hd⟩, rfl⟩
  · rw [n2, n1]
    exact List.map_congr_left fun v hv => BN.TwinOk.copy_endo hv _

/-- The model of a counterfactual query is the fused network. -/
theorem cfModel_ok {setOrd : List V → List V} (hord : ∀ l, (setOrd l).Nodup ∧ ∀ v, v ∈ setOrd l ↔ v ∈ l) {m : SCM II LL}
    {B : BN V S K} (h : m.Rep B) {sfx : V → Nat → V} {dos : List (Obs V S)} (ht : B.TwinOk m.exogenous m.endogenous sfx dos)
    (hused : ∀ d ∈ dos, ∀ v ∈ m.endogenous, (v ∉ Dict.keys d ∧ B.parents v ≠ []) ∨ ∃ c ∈ B.nodes, v ∈ B.parents c ∧ c ∉ Dict.keys d) :
    ∃ (m' : SCM II LL) (nodes : List V), cfModel sfx setOrd m dos = .ok m' ∧
      m'.Rep (BN.glue B (B.twins m.endogenous sfx dos) nodes) ∧ nodes.Nodup ∧
      (∀ w, w ∈ nodes ↔ w ∈ B.nodes ∨ ∃ p ∈ dos.zipIdx, ∃ v ∈ m.endogenous, w = sfx v (p.2 + 1)) ∧
      m'.endogenous = BN.twinEndo m.endogenous sfx dos ∧ m'.cast = m.cast ∧ (m.Multi → m'.Multi) := by
  have hw := fun p (hp : p ∈ dos.zipIdx) => world_ok h ht hp
  have : Nonempty (SCM II LL) := ⟨m⟩
  choose! w hw using hw
  have hmem : ∀ v, v ∈ (SCM.fusedGraph m (dos.zipIdx.map w)).nodes ↔ v ∈ B.nodes ∨ ∃ p ∈ dos.zipIdx, ∃ x ∈ m.endogenous, v = sfx x (p.2 + 1) := by
    intro v
    rw [(SCM.fusedGraph_spec (dos.zipIdx.map w) h.wf).2.1, h.nodes]
    constructor
    · rintro (hv | ⟨m', hm', e, he, hv⟩)
      · exact .inl hv
      · obtain ⟨p, hp, rfl⟩ := List.mem_map.1 hm'
        obtain ⟨_, r, _⟩ := hw p hp
        have : v ∈ (B.twin m.endogenous sfx p).nodes := by
          rw [← r.nodes]
          rcases hv with rfl | rfl
          · exact (r.wf.ends e he).1
          · exact (r.wf.ends e he).2
        rcases (ht.mem_twin v).1 this with hx | ⟨x, hx, e⟩
        · exact .inl ((ht.mem_nodes v).2 (.inl hx))
        · exact .inr ⟨p, hp, x, hx, e⟩
    · rintro (hv | ⟨p, hp, x, hx, rfl⟩)
      · exact .inl hv
      · right
        refine ⟨w p, List.mem_map_of_mem hp, ?_⟩
        obtain ⟨_, _, ed, _⟩ := hw p hp
        rcases hused p.1 (mem_zipIdx hp).2.2 x hx with ⟨h1, h2⟩ | ⟨c, hc, h1, h2⟩
        · obtain ⟨y, hy⟩ := List.exists_mem_of_ne_nil _ h2
          refine ⟨_, ed _ ((h.parents x (ht.endo_nodes x hx) y).1 hy) h1, .inr ?_⟩
          exact (BN.TwinOk.copy_endo hx _).symm
        · refine ⟨_, ed _ ((h.parents c hc x).1 h1) h2, .inl ?_⟩
          exact (BN.TwinOk.copy_endo hx _).symm
  have hnd := (SCM.fusedGraph_spec (dos.zipIdx.map w) h.wf).1.nodes
  have hg := ht.glueOk hnd hmem
  have hF : List.Forall₂ SCM.Rep (m :: dos.zipIdx.map w) (B :: B.twins m.endogenous sfx dos) := by
    refine .cons h ?_
    rw [BN.twins]
    have : ∀ l : List (Obs V S × Nat), (∀ p ∈ l, p ∈ dos.zipIdx) → List.Forall₂ SCM.Rep (l.map w) (l.map (B.twin m.endogenous sfx)) := by
      intro l
      induction l with
      | nil => exact fun _ => .nil
      | cons p l ih => exact fun hl => .cons (hw p (hl p List.mem_cons_self)).2.1 (ih fun q hq => hl q (List.mem_cons_of_mem _ hq))
    exact this _ fun p hp => hp
  have hendo : (m :: dos.zipIdx.map w).flatMap SCM.endogenous = BN.twinEndo m.endogenous sfx dos := by
    rw [List.flatMap_cons, BN.twinEndo, List.flatMap_map]
    congr 1
    have : ∀ l : List (Obs V S × Nat), (∀ p ∈ l, p ∈ dos.zipIdx) → l.flatMap (fun p => (w p).endogenous) =
        l.flatMap fun p => m.endogenous.map fun v => sfx v (p.2 + 1) := by
      intro l
      induction l with
      | nil => exact fun _ => rfl
      | cons p l ih =>
        intro hl
        rw [List.flatMap_cons, List.flatMap_cons, ih fun q hq => hl q (List.mem_cons_of_mem _ hq), (hw p (hl p List.mem_cons_self)).2.2.2.1]
    exact this _ fun p hp => hp
  obtain ⟨m', f1, f2, f3, f4, f5, f6⟩ := SCM.fusion_ok hord hF hg (endo := BN.twinEndo m.endogenous sfx dos) (fun hc => by
      have h0 : m.endogenous = [] := by
        rw [BN.twinEndo, List.append_eq_nil_iff] at hc; exact hc.1
      rw [List.eq_nil_iff_forall_not_mem]
      intro e he
      obtain ⟨m', hm', he'⟩ := ((SCM.fusedGraph_spec (dos.zipIdx.map w) h.wf).2.2 e).1 he
      rcases List.mem_cons.1 hm' with rfl | hm'
      · rw [h.endo h0] at he'; cases he'
      · obtain ⟨p, hp, rfl⟩ := List.mem_map.1 hm'
        obtain ⟨_, r, _, n, _⟩ := hw p hp
        rw [r.endo (by rw [n, h0]; rfl)] at he'; cases he')
    (fun v hv _ => ht.glue_zeroOne hg v hv)
  refine ⟨m', _, ?_, f2, hnd, hmem, f4, f5, fun hmu => f6 fun m'' hm'' => ?_⟩
  · rw [cfModel, mapM_ok fun p hp => (hw p hp).1, py_ok_bind]
    show SCM.fusionRoots setOrd (m :: dos.zipIdx.map w) m.exogenous ((m :: dos.zipIdx.map w).flatMap SCM.endogenous) = _
    rw [hendo]; exact f1
  · rcases List.mem_cons.1 hm'' with rfl | hm''
    · exact hmu
    · obtain ⟨p, hp, rfl⟩ := List.mem_map.1 hm''
      exact (hw p hp).2.2.2.2.2 hmu

end Causal
end Verif
