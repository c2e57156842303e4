import Verif.Net.Glue
import Verif.Model.Relabel

/-!
# Networks of several worlds: helper lemmas
-/

set_option linter.unusedSectionVars false
set_option linter.unusedSimpArgs false

namespace Verif

variable {V S K : Type} [DecidableEq V] [DecidableEq S] [Inhabited S] [Field K] [LinearOrder K]

/-- The name of `v` in the `i`-th world. -/
def copyName (sfx : V → Nat → V) (endo : List V) (i : Nat) (v : V) : V := if v ∈ endo then sfx v i else v

theorem renameOne_copy (sfx : V → Nat → V) (endo : List V) (i : Nat) :
    Factor.renameOne (endo.map fun v => (v, sfx v i)) = copyName sfx endo i := by
  funext v
  rw [Factor.renameOne, Dict.get?_map, copyName]
  split <;> rfl

theorem mem_zipIdx {X : Type} {l : List X} {p : X × Nat} (h : p ∈ l.zipIdx) : l[p.2]? = some p.1 ∧ p.2 < l.length ∧ p.1 ∈ l := by
  have h1 : l[p.2]? = some p.1 := List.mem_zipIdx_iff_getElem?.1 h
  obtain ⟨h2, h3⟩ := List.getElem?_eq_some_iff.1 h1
  exact ⟨h1, h2, by rw [← h3]; exact List.getElem_mem _⟩

theorem zipIdx_ext {X : Type} {l : List X} {p q : X × Nat} (hp : p ∈ l.zipIdx) (hq : q ∈ l.zipIdx) (h : p.2 = q.2) : p = q := by
  have h1 := (mem_zipIdx hp).1
  rw [h, (mem_zipIdx hq).1] at h1
  injection h1 with h1
  exact Prod.ext h1.symm h

theorem pairwise_zipIdx {X : Type} (l : List X) : l.zipIdx.Pairwise fun p q => p.2 ≠ q.2 := by
  rw [List.pairwise_iff_getElem]
  intro i j hi hj hij
  simp only [List.getElem_zipIdx]
  omega

namespace BN

/-- A network whose variables `endo` have structural equations and whose other variables are roots; interventions on
some of `endo`; and names for the copies that are not yet in use. -/
structure TwinOk (B : BN V S K) (exo endo : List V) (sfx : V → Nat → V) (dos : List (Obs V S)) : Prop where
  valid : B.Valid
  norm : B.Normalised
  perm : B.nodes.Perm (exo ++ endo)
  roots : ∀ x ∈ exo, B.parents x = []
  zeroOne : ∀ v ∈ endo, ∀ a, B.InStates a → B.table v a = 0 ∨ B.table v a = 1
  doKeys : ∀ d ∈ dos, ∀ v ∈ Dict.keys d, v ∈ endo
  doOk : ∀ d ∈ dos, B.DoOk d
  fresh : ∀ v ∈ endo, ∀ i, 1 ≤ i → i ≤ dos.length → sfx v i ∉ B.nodes
  inj : ∀ v ∈ endo, ∀ w ∈ endo, ∀ i j, 1 ≤ i → i ≤ dos.length → 1 ≤ j → j ≤ dos.length → sfx v i = sfx w j → v = w ∧ i = j

/-- The network of one world. -/
def twin (B : BN V S K) (endo : List V) (sfx : V → Nat → V) (p : Obs V S × Nat) : BN V S K :=
  (B.doBN p.1).relabel (copyName sfx endo (p.2 + 1))

def twins (B : BN V S K) (endo : List V) (sfx : V → Nat → V) (dos : List (Obs V S)) : List (BN V S K) :=
  dos.zipIdx.map (B.twin endo sfx)

/-- The variables with equations in the fused network. -/
def twinEndo (endo : List V) (sfx : V → Nat → V) (dos : List (Obs V S)) : List V :=
  endo ++ dos.zipIdx.flatMap fun p => endo.map fun v => sfx v (p.2 + 1)

namespace TwinOk
variable {B : BN V S K} {exo endo : List V} {sfx : V → Nat → V} {dos : List (Obs V S)}

theorem mem_nodes (h : B.TwinOk exo endo sfx dos) (v : V) : v ∈ B.nodes ↔ v ∈ exo ∨ v ∈ endo := by
  rw [h.perm.mem_iff, List.mem_append]

theorem endo_nodes (h : B.TwinOk exo endo sfx dos) : ∀ v ∈ endo, v ∈ B.nodes := fun v hv => (h.mem_nodes v).2 (.inr hv)

theorem nodup (h : B.TwinOk exo endo sfx dos) : exo.Nodup ∧ endo.Nodup ∧ ∀ x ∈ exo, x ∉ endo := by
  have := List.nodup_append'.1 (h.perm.nodup_iff.1 h.valid.nodes)
  exact ⟨this.1, this.2.1, fun x hx hn => this.2.2 hx hn⟩

theorem copy_exo (h : B.TwinOk exo endo sfx dos) {x : V} (hx : x ∈ exo) (i : Nat) : copyName sfx endo i x = x := by
  rw [copyName, if_neg (h.nodup.2.2 x hx)]

theorem copy_endo {v : V} (hv : v ∈ endo) (i : Nat) : copyName sfx endo i v = sfx v i := by
  rw [copyName, if_pos hv]

theorem injOn (h : B.TwinOk exo endo sfx dos) {p : Obs V S × Nat} (hp : p ∈ dos.zipIdx) :
    (B.doBN p.1).InjOn (copyName sfx endo (p.2 + 1)) := by
  have hlt := (mem_zipIdx hp).2.1
  intro v hv w hw e
  rcases (h.mem_nodes v).1 hv with hv' | hv' <;> rcases (h.mem_nodes w).1 hw with hw' | hw'
  · rw [h.copy_exo hv', h.copy_exo hw'] at e; exact e
  · rw [h.copy_exo hv', copy_endo hw'] at e
    exact absurd (e ▸ hv) (h.fresh w hw' _ (by omega) (by omega))
  · rw [copy_endo hv', h.copy_exo hw'] at e
    exact absurd (e ▸ hw) (h.fresh v hv' _ (by omega) (by omega))
  · rw [copy_endo hv', copy_endo hw'] at e
    exact (h.inj v hv' w hw' _ _ (by omega) (by omega) (by omega) (by omega) e).1

theorem mem_twin (h : B.TwinOk exo endo sfx dos) {p : Obs V S × Nat} (w : V) :
    w ∈ (B.twin endo sfx p).nodes ↔ w ∈ exo ∨ ∃ v ∈ endo, w = sfx v (p.2 + 1) := by
  show w ∈ B.nodes.map _ ↔ _
  rw [List.mem_map]
  constructor
  · rintro ⟨v, hv, rfl⟩
    rcases (h.mem_nodes v).1 hv with hv' | hv'
    · rw [h.copy_exo hv']; exact .inl hv'
    · rw [copy_endo hv']; exact .inr ⟨v, hv', rfl⟩
  · rintro (hw | ⟨v, hv, rfl⟩)
    · exact ⟨w, (h.mem_nodes w).2 (.inl hw), h.copy_exo hw _⟩
    · exact ⟨v, (h.mem_nodes v).2 (.inr hv), copy_endo hv _⟩

theorem glueOk (h : B.TwinOk exo endo sfx dos) {nodes : List V} (hn : nodes.Nodup)
    (hm : ∀ w, w ∈ nodes ↔ w ∈ B.nodes ∨ ∃ p ∈ dos.zipIdx, ∃ v ∈ endo, w = sfx v (p.2 + 1)) :
    GlueOk B (B.twins endo sfx dos) exo nodes where
  valid := by
    intro B' hB'
    rcases List.mem_cons.1 hB' with rfl | hB'
    · exact h.valid
    · obtain ⟨p, hp, rfl⟩ := List.mem_map.1 hB'
      exact (h.valid.doBN p.1).relabel (h.injOn hp)
  onNodup := h.nodup.1
  shared := by
    intro B' hB' u hu
    have hun := (h.mem_nodes u).2 (.inl hu)
    rcases List.mem_cons.1 hB' with rfl | hB'
    · exact ⟨hun, h.roots u hu, rfl⟩
    · obtain ⟨p, hp, rfl⟩ := List.mem_map.1 hB'
      have hud : u ∉ Dict.keys p.1 := fun hc => h.nodup.2.2 u hu (h.doKeys p.1 (mem_zipIdx hp).2.2 u hc)
      refine ⟨h.mem_twin u |>.2 (.inl hu), ?_, ?_⟩
      · have := relabel_parents (h.injOn hp) (v := u) hun
        rw [h.copy_exo hu] at this
        show ((B.doBN p.1).relabel _).parents u = []
        rw [this]
        show ((if u ∈ Dict.keys p.1 then [] else B.parents u).map _) = []
        rw [if_neg hud, h.roots u hu]; rfl
      · have := relabel_states (h.injOn hp) (v := u) hun
        rw [h.copy_exo hu] at this
        exact this
  disjoint := by
    rw [List.pairwise_cons]
    refine ⟨fun B' hB' w hw hw' => ?_, ?_⟩
    · obtain ⟨p, hp, rfl⟩ := List.mem_map.1 hB'
      rcases (h.mem_twin w).1 hw' with hx | ⟨v, hv, rfl⟩
      · exact hx
      · have hlt := (mem_zipIdx hp).2.1
        exact absurd hw (h.fresh v hv _ (by omega) (by omega))
    · rw [twins, List.pairwise_map]
      refine (pairwise_zipIdx dos).imp_of_mem fun {p q} hp hq hpq w hw hw' => ?_
      rcases (h.mem_twin w).1 hw with hx | ⟨v, hv, rfl⟩
      · exact hx
      · rcases (h.mem_twin _).1 hw' with hx | ⟨v', hv', e⟩
        · exact hx
        · have h1 := (mem_zipIdx hp).2.1
          have h2 := (mem_zipIdx hq).2.1
          have := (h.inj v hv v' hv' _ _ (by omega) (by omega) (by omega) (by omega) e).2
          exact absurd (by omega) hpq
  nodup := hn
  mem := by
    intro w
    rw [hm]
    constructor
    · rintro (hw | ⟨p, hp, v, hv, e⟩)
      · exact ⟨B, List.mem_cons_self, hw⟩
      · exact ⟨B.twin endo sfx p, List.mem_cons_of_mem _ (List.mem_map_of_mem hp), (h.mem_twin w).2 (.inr ⟨v, hv, e⟩)⟩
    · rintro ⟨B', hB', hw⟩
      rcases List.mem_cons.1 hB' with rfl | hB'
      · exact .inl hw
      · obtain ⟨p, hp, rfl⟩ := List.mem_map.1 hB'
        rcases (h.mem_twin w).1 hw with hx | ⟨v, hv, e⟩
        · exact .inl ((h.mem_nodes w).2 (.inl hx))
        · exact .inr ⟨p, hp, v, hv, e⟩

section net
variable {nodes : List V}

theorem mem_twinEndo {w : V} : w ∈ twinEndo endo sfx dos ↔ w ∈ endo ∨ ∃ p ∈ dos.zipIdx, ∃ v ∈ endo, sfx v (p.2 + 1) = w := by
  simp only [twinEndo, List.mem_append, List.mem_flatMap, List.mem_map]

theorem nodup_twinEndo (h : B.TwinOk exo endo sfx dos) : (exo ++ twinEndo endo sfx dos).Nodup := by
  rw [twinEndo, ← List.append_assoc, List.nodup_append']
  refine ⟨h.perm.nodup_iff.1 h.valid.nodes, ?_, ?_⟩
  · rw [List.nodup_flatMap]
    refine ⟨fun p hp => ?_, (pairwise_zipIdx dos).imp_of_mem fun {p q} hp hq hpq w hw hw' => ?_⟩
    · have h1 := (mem_zipIdx hp).2.1
      exact List.Nodup.map_on (fun v hv w hw e => (h.inj v hv w hw _ _ (by omega) (by omega) (by omega) (by omega) e).1) h.nodup.2.1
    · obtain ⟨v, hv, rfl⟩ := List.mem_map.1 hw
      obtain ⟨v', hv', e⟩ := List.mem_map.1 hw'
      have h1 := (mem_zipIdx hp).2.1
      have h2 := (mem_zipIdx hq).2.1
      have := (h.inj v' hv' v hv _ _ (by omega) (by omega) (by omega) (by omega) e).2
      exact absurd (by omega) hpq
  · intro w hw hw'
    obtain ⟨p, hp, hw'⟩ := List.mem_flatMap.1 hw'
    obtain ⟨v, hv, rfl⟩ := List.mem_map.1 hw'
    have h1 := (mem_zipIdx hp).2.1
    exact h.fresh v hv _ (by omega) (by omega) (h.perm.mem_iff.2 hw)

theorem glue_perm (h : B.TwinOk exo endo sfx dos) (hn : nodes.Nodup)
    (hm : ∀ w, w ∈ nodes ↔ w ∈ B.nodes ∨ ∃ p ∈ dos.zipIdx, ∃ v ∈ endo, w = sfx v (p.2 + 1)) :
    nodes.Perm (exo ++ twinEndo endo sfx dos) := by
  rw [List.perm_ext_iff_of_nodup hn h.nodup_twinEndo]
  intro w
  rw [hm, List.mem_append, mem_twinEndo, h.mem_nodes, or_assoc]
  simp only [eq_comm]

theorem table_endo (h : B.TwinOk exo endo sfx dos) (hg : GlueOk B (B.twins endo sfx dos) exo nodes) {v : V} (hv : v ∈ endo) :
    (glue B (B.twins endo sfx dos) nodes).table v = B.table v ∧ (glue B (B.twins endo sfx dos) nodes).states v = B.states v := by
  have hvn := (h.mem_nodes v).2 (.inr hv)
  exact ⟨hg.table_eq List.mem_cons_self hvn fun hx => h.nodup.2.2 v hx hv, hg.states_eq List.mem_cons_self hvn⟩

theorem table_copy (h : B.TwinOk exo endo sfx dos) (hg : GlueOk B (B.twins endo sfx dos) exo nodes) {v : V} (hv : v ∈ endo)
    {p : Obs V S × Nat} (hp : p ∈ dos.zipIdx) :
    (∀ a, (glue B (B.twins endo sfx dos) nodes).table (sfx v (p.2 + 1)) a = (B.doBN p.1).table v fun w => a (copyName sfx endo (p.2 + 1) w)) ∧
      (glue B (B.twins endo sfx dos) nodes).states (sfx v (p.2 + 1)) = B.states v := by
  have hvn := (h.mem_nodes v).2 (.inr hv)
  have h1 := (mem_zipIdx hp).2.1
  have hmem : B.twin endo sfx p ∈ B :: B.twins endo sfx dos := List.mem_cons_of_mem _ (List.mem_map_of_mem hp)
  have hw : sfx v (p.2 + 1) ∈ (B.twin endo sfx p).nodes := (h.mem_twin _).2 (.inr ⟨v, hv, rfl⟩)
  have hx : sfx v (p.2 + 1) ∉ exo := fun hx => h.fresh v hv _ (by omega) (by omega) ((h.mem_nodes _).2 (.inl hx))
  constructor
  · intro a
    rw [hg.table_eq hmem hw hx]
    have := relabel_table (h.injOn hp) (v := v) hvn a
    rw [copy_endo hv] at this
    exact this
  · rw [hg.states_eq hmem hw]
    have := relabel_states (h.injOn hp) (v := v) hvn
    rw [copy_endo hv] at this
    exact this

theorem normalised (h : B.TwinOk exo endo sfx dos) (hg : GlueOk B (B.twins endo sfx dos) exo nodes) :
    (glue B (B.twins endo sfx dos) nodes).Normalised := by
  refine hg.normalised fun B' hB' => ?_
  rcases List.mem_cons.1 hB' with rfl | hB'
  · exact h.norm
  · obtain ⟨p, hp, rfl⟩ := List.mem_map.1 hB'
    exact BN.Normalised.relabel (h.valid.doBN p.1) (BN.Normalised.doBN h.valid h.norm (h.doOk p.1 (mem_zipIdx hp).2.2)) (h.injOn hp)

theorem glue_zeroOne (h : B.TwinOk exo endo sfx dos) (hg : GlueOk B (B.twins endo sfx dos) exo nodes) :
    ∀ w ∈ twinEndo endo sfx dos, ∀ a, (glue B (B.twins endo sfx dos) nodes).InStates a →
      (glue B (B.twins endo sfx dos) nodes).table w a = 0 ∨ (glue B (B.twins endo sfx dos) nodes).table w a = 1 := by
  intro w hw a ha
  rcases mem_twinEndo.1 hw with hw | ⟨p, hp, v, hv, rfl⟩
  · rw [(h.table_endo hg hw).1]
    exact h.zeroOne w hw a (hg.inStates List.mem_cons_self ha)
  · rw [(h.table_copy hg hv hp).1]
    refine BN.doBN_zero_one fun _ => h.zeroOne v hv _ ?_
    have := hg.inStates (B := B.twin endo sfx p) (List.mem_cons_of_mem _ (List.mem_map_of_mem hp)) ha
    exact (relabel_inStates (h.injOn hp) a).1 this

/-- The joint distribution of the fused network. -/
theorem joint (h : B.TwinOk exo endo sfx dos) (hn : nodes.Nodup)
    (hm : ∀ w, w ∈ nodes ↔ w ∈ B.nodes ∨ ∃ p ∈ dos.zipIdx, ∃ v ∈ endo, w = sfx v (p.2 + 1)) (a : V → S) :
    (glue B (B.twins endo sfx dos) nodes).joint a = (exo.map fun u => B.table u a).prod * (endo.map fun v => B.table v a).prod *
      (dos.zipIdx.map fun p => (endo.map fun v => (B.doBN p.1).table v fun w => a (copyName sfx endo (p.2 + 1) w)).prod).prod := by
  have hg := h.glueOk hn hm
  rw [BN.joint]
  show (nodes.map _).prod = _
  rw [((h.glue_perm hn hm).map _).prod_eq, twinEndo, List.map_append, List.map_append, List.prod_append, List.prod_append, ← mul_assoc]
  congr 1
  · congr 1
    · congr 1
      exact List.map_congr_left fun u hu => by rw [hg.table_on hu]
    · congr 1
      exact List.map_congr_left fun u hu => by rw [(h.table_endo hg hu).1]
  · have : ∀ l : List (Obs V S × Nat), (∀ p ∈ l, p ∈ dos.zipIdx) →
        ((l.flatMap fun p => endo.map fun v => sfx v (p.2 + 1)).map fun w => (glue B (B.twins endo sfx dos) nodes).table w a).prod =
          (l.map fun p => (endo.map fun v => (B.doBN p.1).table v fun w => a (copyName sfx endo (p.2 + 1) w)).prod).prod := by
      intro l
      induction l with
      | nil => intro _; rfl
      | cons p l ih =>
        intro hl
        rw [List.flatMap_cons, List.map_append, List.prod_append, ih fun q hq => hl q (List.mem_cons_of_mem _ hq), List.map_cons, List.prod_cons,
          List.map_map]
        congr 2
        exact List.map_congr_left fun v hv => (h.table_copy hg hv (hl p List.mem_cons_self)).1 a
    exact this _ fun p hp => hp

end net
end TwinOk
end BN
end Verif
