import Verif.Net.Solution

/-!
# Networks that share root nodes: helper lemmas
-/

set_option linter.unusedSectionVars false
set_option linter.unusedSimpArgs false

namespace Verif

variable {V S K : Type} [DecidableEq V] [DecidableEq S]

theorem find?_unique {X : Type} {p : X → Bool} {l : List X} (h : l.Pairwise fun x y => ¬ (p x = true ∧ p y = true)) {x : X} (hx : x ∈ l)
    (hp : p x = true) : l.find? p = some x := by
  induction l with
  | nil => cases hx
  | cons y l ih =>
    rw [List.pairwise_cons] at h
    rcases List.mem_cons.1 hx with rfl | hx
    · rw [List.find?_cons_of_pos hp]
    · rw [List.find?_cons_of_neg fun hy => h.1 x hx ⟨hy, hp⟩]
      exact ih h.2 hx

namespace BN

/-- The first of the networks that has the node. -/
def owner (B0 : BN V S K) (Bs : List (BN V S K)) (w : V) : BN V S K := ((B0 :: Bs).find? fun B => w ∈ B.nodes).getD B0

/-- The union of networks that share root nodes; these have the table of the first. -/
def glue (B0 : BN V S K) (Bs : List (BN V S K)) (nodes : List V) : BN V S K where
  nodes := nodes
  parents w := (owner B0 Bs w).parents w
  states w := (owner B0 Bs w).states w
  table w := (owner B0 Bs w).table w

/-- The networks have the nodes `on`, which are roots, in common and no others. -/
structure GlueOk (B0 : BN V S K) (Bs : List (BN V S K)) (on nodes : List V) : Prop where
  valid : ∀ B ∈ B0 :: Bs, B.Valid
  onNodup : on.Nodup
  shared : ∀ B ∈ B0 :: Bs, ∀ u ∈ on, u ∈ B.nodes ∧ B.parents u = [] ∧ B.states u = B0.states u
  disjoint : (B0 :: Bs).Pairwise fun B B' => ∀ w ∈ B.nodes, w ∈ B'.nodes → w ∈ on
  nodup : nodes.Nodup
  mem : ∀ w, w ∈ nodes ↔ ∃ B ∈ B0 :: Bs, w ∈ B.nodes

namespace GlueOk
variable {B0 : BN V S K} {Bs : List (BN V S K)} {on nodes : List V}

theorem owner_on (h : GlueOk B0 Bs on nodes) {u : V} (hu : u ∈ on) : owner B0 Bs u = B0 := by
  rw [owner, List.find?_cons_of_pos (by simpa using (h.shared B0 List.mem_cons_self u hu).1)]; rfl

theorem owner_eq (h : GlueOk B0 Bs on nodes) {B : BN V S K} (hB : B ∈ B0 :: Bs) {w : V} (hw : w ∈ B.nodes) (hon : w ∉ on) :
    owner B0 Bs w = B := by
  have hp : (B0 :: Bs).Pairwise fun x y => ¬ (decide (w ∈ x.nodes) = true ∧ decide (w ∈ y.nodes) = true) := by
    refine h.disjoint.imp ?_
    rintro B B' hd ⟨h1, h2⟩
    exact hon (hd w (by simpa using h1) (by simpa using h2))
  rw [owner, find?_unique hp hB (by simpa using hw)]; rfl

theorem mem_of (h : GlueOk B0 Bs on nodes) {B : BN V S K} (hB : B ∈ B0 :: Bs) {w : V} (hw : w ∈ B.nodes) : w ∈ nodes :=
  (h.mem w).2 ⟨B, hB, hw⟩

theorem states_eq (h : GlueOk B0 Bs on nodes) {B : BN V S K} (hB : B ∈ B0 :: Bs) {w : V} (hw : w ∈ B.nodes) :
    (glue B0 Bs nodes).states w = B.states w := by
  show (owner B0 Bs w).states w = _
  by_cases hon : w ∈ on
  · rw [h.owner_on hon, (h.shared B hB w hon).2.2]
  · rw [h.owner_eq hB hw hon]

theorem parents_eq (h : GlueOk B0 Bs on nodes) {B : BN V S K} (hB : B ∈ B0 :: Bs) {w : V} (hw : w ∈ B.nodes) :
    (glue B0 Bs nodes).parents w = B.parents w := by
  show (owner B0 Bs w).parents w = _
  by_cases hon : w ∈ on
  · rw [h.owner_on hon, (h.shared B hB w hon).2.1, (h.shared B0 List.mem_cons_self w hon).2.1]
  · rw [h.owner_eq hB hw hon]

theorem table_eq (h : GlueOk B0 Bs on nodes) {B : BN V S K} (hB : B ∈ B0 :: Bs) {w : V} (hw : w ∈ B.nodes) (hon : w ∉ on) :
    (glue B0 Bs nodes).table w = B.table w := by
  show (owner B0 Bs w).table w = _
  rw [h.owner_eq hB hw hon]

theorem table_on (h : GlueOk B0 Bs on nodes) {w : V} (hon : w ∈ on) : (glue B0 Bs nodes).table w = B0.table w := by
  show (owner B0 Bs w).table w = _
  rw [h.owner_on hon]

theorem inStates (h : GlueOk B0 Bs on nodes) {B : BN V S K} (hB : B ∈ B0 :: Bs) {a : V → S} (ha : (glue B0 Bs nodes).InStates a) :
    B.InStates a := fun w hw => by
  rw [← h.states_eq hB hw]; exact ha w (h.mem_of hB hw)

/-- A node is shared or belongs to one network. -/
theorem cases (h : GlueOk B0 Bs on nodes) {w : V} (hw : w ∈ nodes) :
    ∃ B ∈ B0 :: Bs, w ∈ B.nodes ∧ owner B0 Bs w = B := by
  by_cases hon : w ∈ on
  · exact ⟨B0, List.mem_cons_self, (h.shared B0 List.mem_cons_self w hon).1, h.owner_on hon⟩
  · obtain ⟨B, hB, hwB⟩ := (h.mem w).1 hw
    exact ⟨B, hB, hwB, h.owner_eq hB hwB hon⟩

theorem acyclic (h : GlueOk B0 Bs on nodes) (v : V) :
    ¬ Relation.TransGen (fun u w => w ∈ nodes ∧ u ∈ (glue B0 Bs nodes).parents w) v v := by
  have hstep : ∀ u w, (w ∈ nodes ∧ u ∈ (glue B0 Bs nodes).parents w) → w ∉ on := by
    rintro u w ⟨_, hu⟩ hon
    have hw := (h.shared B0 List.mem_cons_self w hon)
    rw [h.parents_eq List.mem_cons_self hw.1, hw.2.1] at hu
    cases hu
  have key : ∀ u w, Relation.TransGen (fun u w => w ∈ nodes ∧ u ∈ (glue B0 Bs nodes).parents w) u w → u ∉ on →
      ∀ B ∈ B0 :: Bs, w ∈ B.nodes → w ∉ on ∧ u ∈ B.nodes ∧ Relation.TransGen (fun u w => w ∈ B.nodes ∧ u ∈ B.parents w) u w := by
    intro u w hp hu
    induction hp with
    | single hs =>
      intro B hB hw
      have hpw := hs.2
      rw [h.parents_eq hB hw] at hpw
      exact ⟨hstep _ _ hs, (h.valid B hB).parents _ hw _ hpw, .single ⟨hw, hpw⟩⟩
    | tail hp hs ih =>
      intro B hB hw
      have hpw := hs.2
      rw [h.parents_eq hB hw] at hpw
      have hb := (h.valid B hB).parents _ hw _ hpw
      obtain ⟨h1, h2, h3⟩ := ih B hB hb
      exact ⟨hstep _ _ hs, h2, h3.tail ⟨hw, hpw⟩⟩
  intro hc
  have hv : v ∉ on ∧ v ∈ nodes := by
    cases hc with
    | single hs => exact ⟨hstep _ _ hs, hs.1⟩
    | tail _ hs => exact ⟨hstep _ _ hs, hs.1⟩
  obtain ⟨B, hB, hvB⟩ := (h.mem v).1 hv.2
  exact (h.valid B hB).acyclic v (key v v hc hv.1 B hB hvB).2.2

theorem glueValid (h : GlueOk B0 Bs on nodes) : (glue B0 Bs nodes).Valid where
  nodes := h.nodup
  parents := by
    intro w hw p hp
    obtain ⟨B, hB, hwB⟩ := (h.mem w).1 hw
    rw [h.parents_eq hB hwB] at hp
    exact h.mem_of hB ((h.valid B hB).parents w hwB p hp)
  acyclic := h.acyclic
  nodupStates := by
    intro w hw
    obtain ⟨B, hB, hwB⟩ := (h.mem w).1 hw
    rw [h.states_eq hB hwB]; exact (h.valid B hB).nodupStates w hwB
  nonempty := by
    intro w hw
    obtain ⟨B, hB, hwB⟩ := (h.mem w).1 hw
    rw [h.states_eq hB hwB]; exact (h.valid B hB).nonempty w hwB
  scope := by
    intro w hw
    obtain ⟨B, hB, hwB, ho⟩ := h.cases hw
    show DependsOn ((owner B0 Bs w).table w) (w :: (owner B0 Bs w).parents w)
    rw [ho]; exact (h.valid B hB).scope w hwB

theorem normalised [Semiring K] (h : GlueOk B0 Bs on nodes) (hn : ∀ B ∈ B0 :: Bs, B.Normalised) : (glue B0 Bs nodes).Normalised := by
  intro w hw a ha
  obtain ⟨B, hB, hwB, ho⟩ := h.cases hw
  show (((owner B0 Bs w).states w).map fun s => (owner B0 Bs w).table w (upd a w s)).sum = 1
  rw [ho]; exact hn B hB w hwB a (h.inStates hB ha)

theorem nonNeg [Zero K] [LE K] (h : GlueOk B0 Bs on nodes) (hn : ∀ B ∈ B0 :: Bs, B.NonNeg) : (glue B0 Bs nodes).NonNeg := by
  intro w hw a ha
  obtain ⟨B, hB, hwB, ho⟩ := h.cases hw
  show 0 ≤ (owner B0 Bs w).table w a
  rw [ho]; exact hn B hB w hwB a (h.inStates hB ha)

theorem perm (h : GlueOk B0 Bs on nodes) : nodes.Perm (on ++ (B0 :: Bs).flatMap fun B => B.nodes.filter (· ∉ on)) := by
  rw [List.perm_ext_iff_of_nodup h.nodup]
  · intro w
    rw [h.mem, List.mem_append, List.mem_flatMap]
    constructor
    · rintro ⟨B, hB, hw⟩
      by_cases hon : w ∈ on
      · exact .inl hon
      · exact .inr ⟨B, hB, List.mem_filter.2 ⟨hw, by simpa using hon⟩⟩
    · rintro (hon | ⟨B, hB, hw⟩)
      · exact ⟨B0, List.mem_cons_self, (h.shared B0 List.mem_cons_self w hon).1⟩
      · exact ⟨B, hB, (List.mem_filter.1 hw).1⟩
  · rw [List.nodup_append']
    refine ⟨h.onNodup, ?_, ?_⟩
    · rw [List.nodup_flatMap]
      refine ⟨fun B hB => (h.valid B hB).nodes.filter _, h.disjoint.imp fun {B B'} hd => ?_⟩
      intro w hw hw'
      have := hd w (List.mem_filter.1 hw).1 (List.mem_filter.1 hw').1
      simpa [this] using (List.mem_filter.1 hw).2
    · intro w hw hw'
      obtain ⟨B, hB, hwB⟩ := List.mem_flatMap.1 hw'
      simpa [hw] using (List.mem_filter.1 hwB).2

theorem joint [CommMonoid K] (h : GlueOk B0 Bs on nodes) (a : V → S) :
    (glue B0 Bs nodes).joint a = (on.map fun u => B0.table u a).prod *
      ((B0 :: Bs).map fun B => ((B.nodes.filter (· ∉ on)).map fun w => B.table w a).prod).prod := by
  rw [BN.joint]
  show (nodes.map _).prod = _
  rw [(h.perm.map _).prod_eq, List.map_append, List.prod_append]
  congr 1
  · congr 1
    exact List.map_congr_left fun u hu => by rw [h.table_on hu]
  · have : ∀ l : List (BN V S K), (∀ B ∈ l, B ∈ B0 :: Bs) →
        ((l.flatMap fun B => B.nodes.filter (· ∉ on)).map fun v => (glue B0 Bs nodes).table v a).prod =
          (l.map fun B => ((B.nodes.filter (· ∉ on)).map fun w => B.table w a).prod).prod := by
      intro l
      induction l with
      | nil => intro _; rfl
      | cons B l ih =>
        intro hl
        rw [List.flatMap_cons, List.map_append, List.prod_append, ih fun B hB => hl B (List.mem_cons_of_mem _ hB), List.map_cons, List.prod_cons]
        congr 1; congr 1
        refine List.map_congr_left fun w hw => ?_
        rw [h.table_eq (hl B List.mem_cons_self) (List.mem_filter.1 hw).1 (by simpa using (List.mem_filter.1 hw).2)]
    exact this _ fun B hB => hB

end GlueOk
end BN
end Verif
