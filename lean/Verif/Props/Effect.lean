import Verif.Net.Effect
import Verif.Props.Tian
import Verif.Props.FrontDoor
import Verif.Props.Attained

/-!
# C103: effects of variables that are not confounded with their children are determined by observations
-/

set_option linter.unusedSectionVars false
set_option linter.unusedSimpArgs false

namespace Verif
open Relation Causal

variable {V S K : Type} [DecidableEq V] [DecidableEq S] [Inhabited S] [Field K] [LinearOrder K] [IsStrictOrderedRing K] {vt : VType}

local notation "II" => (storeOf vt : StoreImpl V S (Fl K))
local notation "LL" => (labelStoreOf vt : LabelStore V S)

namespace Props

/-! ### Specification -/

/-- No variable of `X` has a child, itself not in `X`, with which it is connected by a chain of shared exogenous variables. -/
def Unconfounded (g : DiGraph V) (endo X : List V) : Prop :=
  ∀ x ∈ X, ∀ v, (x, v) ∈ g.edges → v ∉ X → ¬ ReflTransGen (Confounded g endo) x v

/-- The product over the variables of `c` of their probabilities given all earlier ones, `P` being the probability of the values of a list of variables -/
def givenEarlier (P : List V → (V → S) → K) (o c : List V) (a : V → S) : K := (c.map fun v => P (v :: before o v) a / P (before o v) a).prod

/-- The formula for what remains when `X` is imposed: in each component `c` the product is summed over the imposed variables. -/
def imposed (D : V → List S) (P : List V → (V → S) → K) (cs : List (List V)) (o X : List V) (a : V → S) : K :=
  (cs.map fun c => sumOver D (c.filter (· ∈ X)) (givenEarlier P o c) a).prod

/-- The components, and each variable without exogenous parent by itself -/
def components (g : DiGraph V) (endo o : List V) : List (List V) :=
  (g.endoCComponents endo).map (fun c => o.filter (· ∈ c)) ++ (o.filter fun v => decide (∀ e ∈ g.edges, e.2 = v → e.1 ∈ endo)).map fun v => [v]

/-- The formula for the probability of the values of `W` when `d` is imposed, `P` being the probability of the values of a list of variables -/
def effectOf (D : V → List S) (P : List V → (V → S) → K) (g : DiGraph V) (endo o : List V) (d : Obs V S) (W : List V) (a : V → S) : K :=
  sumOver D (o.filter fun v => v ∉ W ∧ v ∉ Dict.keys d) (imposed D P (components g endo o) o (Dict.keys d)) (over d a)

/-! ### The formula -/

/-- The same components, as sets of nodes that edges from exogenous variables do not leave -/
theorem parts_ok {g : DiGraph V} {endo o : List V} (h : EndoOk g endo o) (hend : ∀ e ∈ g.edges, e.2 ∈ endo) : ∃ ks : List (V → Bool),
    (∀ k ∈ ks, Closed g endo k) ∧ (ks.Pairwise fun k l => ∀ v, k v = true → l v = false) ∧ (∀ v ∈ o, ∃ k ∈ ks, k v = true) ∧
    (∀ k ∈ ks, ∀ x ∈ o, ∀ y ∈ o, k x = true → k y = true → ReflTransGen (Confounded g endo) x y) ∧
    (ks.map fun k => o.filter k) = components g endo o := by
  have hX := DiGraph.exoGraph_wf g endo
  have hs := DiGraph.components_spec hX
  have hend' : ∀ v ∈ o, v ∈ endo := fun v hv => (h.mem_iff.1 hv).2
  set sing := o.filter fun v => decide (∀ e ∈ g.edges, e.2 = v → e.1 ∈ endo) with hsing
  have hms : ∀ v, v ∈ sing ↔ v ∈ o ∧ ∀ e ∈ g.edges, e.2 = v → e.1 ∈ endo := fun v => by rw [hsing, List.mem_filter, decide_eq_true_eq]
  have hsn : sing.Nodup := h.nodup.filter _
  have hcn : ∀ c ∈ g.ccomponents endo, ∀ v ∈ c, v ∈ (g.exoGraph endo).nodes := fun c hc v hv => by
    obtain ⟨z, hz, rfl⟩ := hs.comp c hc
    rcases ReflTransGen.cases_head ((DiGraph.mem_component hX hz).1 hv) with e | ⟨w, hw, _⟩
    · exact e ▸ hz
    · have hv' := (DiGraph.mem_component hX hz).1 hv
      rcases ReflTransGen.cases_tail hv' with e | ⟨w', _, hw'⟩
      · exact e ▸ hz
      · rcases hw' with hw' | hw'
        · exact (hX.ends _ hw').2
        · exact (hX.ends _ hw').1
  refine ⟨(g.ccomponents endo).map (fun c v => decide (v ∈ c)) ++ sing.map fun v w => decide (w = v), ?_, ?_, ?_, ?_, ?_⟩
  · intro k hk
    rcases List.mem_append.1 hk with hk | hk
    · obtain ⟨c, hc, rfl⟩ := List.mem_map.1 hk
      obtain ⟨z, hz, rfl⟩ := hs.comp c hc
      intro e he hx
      have hedge : (g.exoGraph endo).Edge e.1 e.2 := DiGraph.exoGraph_edges.2 ⟨he, hx⟩
      simp only [decide_eq_decide, DiGraph.mem_component hX hz]
      exact ⟨fun hh => hh.tail (.inl hedge), fun hh => hh.tail (.inr hedge)⟩
    · obtain ⟨v, hv, rfl⟩ := List.mem_map.1 hk
      intro e he hx
      obtain ⟨h1, h2⟩ := (hms v).1 hv
      simp only [decide_eq_decide]
      exact ⟨fun hh => absurd (hend' v h1) (hh ▸ hx), fun hh => absurd (h2 e he hh) hx⟩
  · rw [List.pairwise_append]
    refine ⟨?_, ?_, ?_⟩
    · rw [List.pairwise_map]
      refine hs.disjoint.imp fun hcd v hv => ?_
      simpa using hcd v (by simpa using hv)
    · rw [List.pairwise_map]
      refine hsn.imp fun hvw x hx => ?_
      have hx := of_decide_eq_true hx
      simpa [hx] using hvw
    · intro k hk l hl v hv
      obtain ⟨c, hc, rfl⟩ := List.mem_map.1 hk
      obtain ⟨w, hw, rfl⟩ := List.mem_map.1 hl
      by_contra hvw
      have hvw : v = w := by simpa using hvw
      obtain ⟨h1, h2⟩ := (hms w).1 hw
      obtain ⟨e, he, hx, h3⟩ := DiGraph.exoGraph_nodes.1 (hcn c hc v (by simpa using hv))
      rcases h3 with h3 | h3
      · exact hx (h3 ▸ hvw ▸ hend' w h1)
      · exact hx (h2 e he (h3 ▸ hvw))
  · intro v hv
    by_cases hc : ∀ e ∈ g.edges, e.2 = v → e.1 ∈ endo
    · exact ⟨_, List.mem_append_right _ (List.mem_map.2 ⟨v, (hms v).2 ⟨hv, hc⟩, rfl⟩), by simp⟩
    · push Not at hc
      obtain ⟨e, he, h1, h2⟩ := hc
      obtain ⟨c, hc, hvc⟩ := hs.cover v (DiGraph.exoGraph_nodes.2 ⟨e, he, h2, .inr h1.symm⟩)
      exact ⟨_, List.mem_append_left _ (List.mem_map.2 ⟨c, hc, rfl⟩), by simpa using hvc⟩
  · intro k hk x hx y hy hkx hky
    rcases List.mem_append.1 hk with hk | hk
    · obtain ⟨c, hc, rfl⟩ := List.mem_map.1 hk
      refine C66_minimal hend (c := c.filter (· ∈ endo)) (List.mem_map.2 ⟨c, hc, rfl⟩) ?_ ?_
      · exact List.mem_filter.2 ⟨by simpa using hkx, by simpa using hend' x hx⟩
      · exact List.mem_filter.2 ⟨by simpa using hky, by simpa using hend' y hy⟩
    · obtain ⟨v, _, rfl⟩ := List.mem_map.1 hk
      have h1 : x = v := by simpa using hkx
      have h2 : y = v := by simpa using hky
      rw [h1, h2]
  · rw [List.map_append, List.map_map, List.map_map, components, DiGraph.endoCComponents, List.map_map]
    congr 1
    · refine List.map_congr_left fun c _ => List.filter_congr fun v hv => ?_
      simp [hend' v hv]
    · refine List.map_congr_left fun v hv => ?_
      show o.filter (fun w => decide (w = v)) = [v]
      have := h.nodup
      exact List.perm_singleton.1 ((List.perm_ext_iff_of_nodup (this.filter _) (List.nodup_singleton v)).2 fun w => by
        simp only [List.mem_filter, decide_eq_true_eq, List.mem_singleton]
        exact ⟨fun hh => hh.2, fun hh => ⟨hh ▸ ((hms v).1 hv).1, hh⟩⟩)

/-- A prefix of possible values is possible. -/
theorem prefix_pos {B : BN V S K} (hB : B.Valid) (hnn : B.NonNeg) {o : List V} (hon : o.Nodup) (ho : ∀ v ∈ o, v ∈ B.nodes) {a : V → S} (ha : B.InStates a)
    (hpos : B.marg o a ≠ 0) {W : List V} (hW : ∀ w ∈ W, w ∈ o) : B.marg W a ≠ 0 := by
  intro hz
  refine hpos ?_
  have := BN.marg_zero hB hnn (T := o.filter (· ∉ W)) (W := W) (a := a) (fun t ht => ho t (List.mem_filter.1 ht).1) (hon.filter _)
    (fun t ht => by simpa using (List.mem_filter.1 ht).2) (fun v _ hv => ha v hv) hz
  rw [← this]
  refine B.marg_ext (fun v => ?_) a
  simp only [List.mem_append, List.mem_filter, decide_eq_true_eq]
  exact ⟨fun hv => by by_cases h : v ∈ W <;> simp [h, hv], fun hv => hv.elim (·.1) (hW v)⟩

/-- **C103** what an intervention does to all other endogenous variables is given by their distribution. -/
theorem effect_all {g : DiGraph V} {endo o : List V} {B : BN V S K} {a : V → S} (h : EndoOk g endo o) (hend : ∀ e ∈ g.edges, e.2 ∈ endo) (hB : B.Valid)
    (hn : B.Normalised) (hnn : B.NonNeg) (hgn : g.nodes = B.nodes) (hge : ∀ v ∈ B.nodes, ∀ p, p ∈ B.parents v ↔ (p, v) ∈ g.edges) (ha : B.InStates a)
    {C : List V} {d : Obs V S} (hd : ∀ v ∈ Dict.keys d, v ∈ o) (hda : BN.Agrees d a) (hC : ∀ v, v ∈ C ↔ v ∈ o ∧ v ∉ Dict.keys d)
    (hu : Unconfounded g endo (Dict.keys d)) (hpos : ∀ b, B.InStates b → B.marg o.dropLast b ≠ 0) :
    B.doMarg d C a = imposed B.states B.marg (components g endo o) o (Dict.keys d) a := by
  obtain ⟨ks, k1, k2, k3, k4, k5⟩ := parts_ok h hend
  have ho : ∀ v, v ∈ o ↔ v ∈ B.nodes ∧ v ∈ endo := fun v => by rw [h.mem_iff, hgn]
  rw [h.effect hB hn hgn hge ha k1 k2 k3 hd hda hC (fun k hk p hp hkp v he hkv => by
      by_contra hv
      exact hu p hp v he hv (k4 k hk p (hd p hp) v (h.mem_iff.2 ⟨(h.wf.ends _ he).2, hend _ he⟩) hkp hkv))
    (F := fun v b => B.marg (v :: before o v) b / B.marg (before o v) b) (fun k hk b hb _ =>
      h.prefix_component hB hn hgn hge hb (k1 k hk) o [] (by simp) fun pre x post e =>
        prefix_pos hB hnn (h.nodup.sublist (List.dropLast_sublist o)) (fun v hv => ((ho v).1 (List.dropLast_subset o hv)).1) hb (hpos b hb) fun w hw => by
          rw [e, List.dropLast_append_cons]; exact List.mem_append_left _ hw), imposed, ← k5, List.map_map]
  rfl

/-- … and to some of them -/
theorem effect_some {g : DiGraph V} {endo o : List V} {B : BN V S K} {a : V → S} (h : EndoOk g endo o) (hend : ∀ e ∈ g.edges, e.2 ∈ endo) (hB : B.Valid)
    (hn : B.Normalised) (hnn : B.NonNeg) (hgn : g.nodes = B.nodes) (hge : ∀ v ∈ B.nodes, ∀ p, p ∈ B.parents v ↔ (p, v) ∈ g.edges) (ha : B.InStates a)
    {W : List V} {d : Obs V S} (hd : ∀ v ∈ Dict.keys d, v ∈ o) (hda : BN.Agrees d a) (hW : ∀ w ∈ W, w ∈ o ∧ w ∉ Dict.keys d)
    (hu : Unconfounded g endo (Dict.keys d)) (hpos : ∀ b, B.InStates b → B.marg o.dropLast b ≠ 0) :
    B.doMarg d W a = sumOver B.states (o.filter fun v => v ∉ W ∧ v ∉ Dict.keys d) (imposed B.states B.marg (components g endo o) o (Dict.keys d)) a := by
  have ho : ∀ v, v ∈ o ↔ v ∈ B.nodes ∧ v ∈ endo := fun v => by rw [h.mem_iff, hgn]
  have hk : ∀ v ∈ Dict.keys d, v ∈ B.nodes := fun v hv => ((ho v).1 (hd v hv)).1
  set R := o.filter fun v => v ∉ W ∧ v ∉ Dict.keys d with hR
  have hmR : ∀ v, v ∈ R ↔ v ∈ o ∧ v ∉ W ∧ v ∉ Dict.keys d := fun v => by rw [hR, List.mem_filter, decide_eq_true_eq]
  rw [← BN.doMarg_eq hk, ← (hB.doBN d).sum_marg (T := R) (fun t ht => ((ho t).1 ((hmR t).1 ht).1).1) (h.nodup.filter _) fun t ht => ((hmR t).1 ht).2.1]
  refine sumOver_congr (h.nodup.filter _) fun b hb1 hb2 => ?_
  have hbin : B.InStates b := fun v hv => by
    by_cases hm : v ∈ R
    · exact hb2 v hm
    · rw [hb1 v hm]; exact ha v hv
  rw [BN.doMarg_eq hk]
  refine effect_all h hend hB hn hnn hgn hge hbin hd (fun v s hs => ?_) (fun v => ?_) hu hpos
  · rw [hb1 v fun hm => ((hmR v).1 hm).2.2 (Dict.mem_keys_of_mem (Dict.mem_of_get? hs))]
    exact hda v s hs
  · rw [List.mem_append, hmR]
    constructor
    · rintro (h1 | h1)
      · exact ⟨h1.1, h1.2.2⟩
      · exact hW v h1
    · rintro ⟨h1, h2⟩
      by_cases hv : v ∈ W
      · exact .inr hv
      · exact .inl ⟨h1, hv, h2⟩

theorem sumOver_rel {D D' : V → List S} {f f' : (V → S) → K} {o : List V} (hf : ∀ b b' : V → S, (∀ v ∈ o, b v = b' v ∧ b v ∈ D v) → f b = f' b') (T : List V)
    (hT : ∀ t ∈ T, D t = D' t) : ∀ {a a' : V → S}, (∀ v ∈ o, v ∉ T → a v = a' v ∧ a v ∈ D v) → sumOver D T f a = sumOver D' T f' a' := by
  induction T with
  | nil => intro a a' ha; exact hf a a' fun v hv => ha v hv (by simp)
  | cons t T ih =>
    intro a a' ha
    rw [sumOver_cons, sumOver_cons, ← hT t List.mem_cons_self]
    refine congrArg List.sum (List.map_congr_left fun s hs => ih (fun w hw => hT w (List.mem_cons_of_mem _ hw)) fun v hv hvT => ?_)
    by_cases hvt : v = t
    · subst hvt; rw [upd_same, upd_same]; exact ⟨rfl, hs⟩
    · rw [upd_ne _ _ hvt, upd_ne _ _ hvt]
      exact ha v hv (by simpa using ⟨hvt, hvT⟩)

theorem components_sub {g : DiGraph V} {endo o c : List V} (hc : c ∈ components g endo o) : ∀ v ∈ c, v ∈ o := by
  rcases List.mem_append.1 hc with hc | hc
  · obtain ⟨_, _, rfl⟩ := List.mem_map.1 hc
    exact fun v hv => (List.mem_filter.1 hv).1
  · obtain ⟨w, hw, rfl⟩ := List.mem_map.1 hc
    exact fun v hv => by rw [List.mem_singleton.1 hv]; exact (List.mem_filter.1 hw).1

/-- The formula only uses the states of the variables of the order and the probabilities of their values. -/
theorem imposed_congr {g : DiGraph V} {endo o : List V} {D D' : V → List S} {P P' : List V → (V → S) → K} (hD : ∀ v ∈ o, D v = D' v)
    (hP : ∀ W : List V, (∀ w ∈ W, w ∈ o) → ∀ b b' : V → S, (∀ w ∈ o, b w = b' w ∧ b w ∈ D w) → P W b = P' W b') (X : List V) {a a' : V → S}
    (ha : ∀ v ∈ o, a v = a' v ∧ a v ∈ D v) : imposed D P (components g endo o) o X a = imposed D' P' (components g endo o) o X a' := by
  refine congrArg List.prod (List.map_congr_left fun c hc => ?_)
  have hco := components_sub hc
  refine sumOver_rel (o := o) (fun b b' hb => ?_) _ (fun t ht => hD t (hco t (List.mem_filter.1 ht).1)) fun v hv _ => ha v hv
  refine congrArg List.prod (List.map_congr_left fun v hv => ?_)
  have hbe : ∀ w ∈ before o v, w ∈ o := fun w hw => List.takeWhile_sublist _ |>.subset hw
  rw [hP _ (fun w hw => (List.mem_cons.1 hw).elim (fun e => e ▸ hco v hv) (hbe w)) b b' hb, hP _ hbe b b' hb]

/-- … with whatever gives the probabilities of the values of the endogenous variables -/
theorem effect_of {g : DiGraph V} {endo o : List V} {B : BN V S K} (h : EndoOk g endo o) (hend : ∀ e ∈ g.edges, e.2 ∈ endo) (hB : B.Valid)
    (hn : B.Normalised) (hnn : B.NonNeg) (hgn : g.nodes = B.nodes) (hge : ∀ v ∈ B.nodes, ∀ p, p ∈ B.parents v ↔ (p, v) ∈ g.edges)
    {D : V → List S} {P : List V → (V → S) → K} (hD : ∀ v ∈ o, B.states v = D v) (hPd : ∀ W, DependsOn (P W) W)
    (hP : ∀ W : List V, (∀ w ∈ W, w ∈ o) → ∀ b : V → S, (∀ w ∈ W, b w ∈ D w) → B.marg W b = P W b) (hpos : ∀ b : V → S, (∀ v ∈ o, b v ∈ D v) → P o.dropLast b ≠ 0)
    {d : Obs V S} (hd : ∀ v ∈ Dict.keys d, v ∈ o) (hds : ∀ v s, Dict.get? d v = some s → s ∈ D v) (hu : Unconfounded g endo (Dict.keys d))
    {W : List V} (hW : ∀ w ∈ W, w ∈ o ∧ w ∉ Dict.keys d) {a : V → S} (ha : ∀ w ∈ W, a w ∈ D w) :
    B.doMarg d W a = effectOf D P g endo o d W a := by
  have ho : ∀ v ∈ o, v ∈ B.nodes := fun v hv => by rw [← hgn]; exact (h.mem_iff.1 hv).1
  have hk : ∀ v ∈ Dict.keys d, v ∈ B.nodes := fun v hv => ho v (hd v hv)
  have hoW : ∀ v ∈ W, over d a v = a v := fun v hv => BN.over_not (hW v hv).2
  have hoD : ∀ v ∈ W ++ Dict.keys d, over d a v ∈ D v := fun v hv => by
    rcases List.mem_append.1 hv with hv | hv
    · rw [hoW v hv]; exact ha v hv
    · obtain ⟨s, hs⟩ := Option.isSome_iff_exists.1 (Dict.get?_isSome.2 hv)
      rw [over_of_get? hs]; exact hds v s hs
  have hWo : ∀ v ∈ W ++ Dict.keys d, v ∈ o := fun v hv => (List.mem_append.1 hv).elim (fun hv => (hW v hv).1) (hd v)
  obtain ⟨b, hb1, hb2⟩ := hB.complete (L := W ++ Dict.keys d) (a := over d a) fun v hv _ => by rw [hD v (hWo v hv)]; exact hoD v hv
  rw [doMarg_dep_on hB hk W (b := b) fun v hv => by rw [hb2 v (List.mem_append_left _ hv), hoW v hv],
    effect_some h hend hB hn hnn hgn hge hb1 hd (fun v s hs => by
      rw [hb2 v (List.mem_append_right _ (Dict.get?_isSome.1 (by rw [hs]; rfl))), over_of_get? hs]) hW hu
      fun c hc => by rw [hP o.dropLast (fun _ hw => List.dropLast_subset o hw) c fun w hw => by
                       have hw := List.dropLast_subset o hw
                       rw [← hD w hw]; exact hc w (ho w hw)]
                     exact hpos c fun w hw => by rw [← hD w hw]; exact hc w (ho w hw)]
  refine sumOver_rel (o := o) (fun c c' hc => imposed_congr hD (fun W hW b b' hb => ?_) _ hc) _ (fun t ht => hD t (List.mem_filter.1 ht).1) fun v hv hvT => ?_
  · rw [hP W hW b fun w hw => by rw [← hD w (hW w hw)]; exact (hb w (hW w hw)).2]
    exact hPd W _ _ fun w hw => (hb w (hW w hw)).1
  · have hm : v ∈ W ++ Dict.keys d := by
      by_contra hm
      refine hvT (List.mem_filter.2 ⟨hv, ?_⟩)
      simpa using hm
    rw [hb2 v hm, hD v hv]
    exact ⟨rfl, hoD v hm⟩

/-! ### Two models -/

theorem SCM.Rep.endoOk {m : SCM II LL} {B : BN V S K} (h : m.Rep B) (hB : B.Valid) {endo : List V} (hr : ∀ e ∈ m.base.graph.edges, e.1 ∈ endo → e.2 ∈ endo) :
    ∃ o, EndoOk m.base.graph endo o := by
  have hac : m.base.graph.Acyclic := fun v hv => hB.acyclic v (hv.lift id fun u w huw => by
    have hw := h.nodes ▸ (h.wf.ends _ huw).2
    exact ⟨hw, (h.parents w hw u).2 huw⟩)
  obtain ⟨o, ho⟩ := DiGraph.Acyclic.exists_topo (h.wf.subgraph endo) (hac.mono (h := m.base.graph.subgraph endo) fun e he => (List.mem_filter.1 he).1)
  exact ⟨o, h.wf, ho, hr⟩

theorem SCM.Rep.inner_end {m : SCM II LL} {B : BN V S K} (h : m.Rep B) : ∀ e ∈ m.base.graph.edges, e.2 ∈ B.inner := fun e he => by
  have hw : e.2 ∈ B.nodes := h.nodes ▸ (h.wf.ends _ he).2
  refine BN.mem_inner.2 ⟨hw, fun hn => ?_⟩
  have := (h.parents e.2 hw e.1).2 he
  rw [hn] at this
  cases this

/-- **C103** two models with the same graph and states of the endogenous variables, whatever their equations and exogenous variables, that give the same
positive probabilities to the values of the endogenous variables, give the same answers about interventions on variables that are not confounded with
their children. -/
theorem C103_determined {ch ch' : Choices V} (hch : ch.Ok) (hch' : ch'.Ok) {m m' : SCM II LL} {B B' : BN V S K} (h : CausalOk m B) (h' : CausalOk m' B')
    (hnn : B.NonNeg) (hnn' : B'.NonNeg) (hs : BN.SameEndo B B')
    (hsame : ∀ a : V → S, (∀ v ∈ B.inner, a v ∈ B.states v) → B'.marg B.inner a = B.marg B.inner a)
    (hpos : ∀ a : V → S, (∀ v ∈ B.inner, a v ∈ B.states v) → B.marg B.inner a ≠ 0)
    {T : List V} {d ev : Obs V S} (hT : T ≠ []) (hTn : T.Nodup) (hTv : ∀ t ∈ T, t ∈ B.inner ∧ t ∉ Dict.keys ev ∧ t ∉ Dict.keys d)
    (hd : EvOk B d) (hdk : ∀ v ∈ Dict.keys d, v ∈ B.inner) (hu : Unconfounded m.base.graph B.inner (Dict.keys d))
    (hev : EvOk B ev) (hek : ∀ v ∈ Dict.keys ev, v ∈ B.inner ∧ v ∉ Dict.keys d)
    {e : Option (Obs V S)} (hee : e.getD [] = ev) (hp : B.doMarg d (Dict.keys ev) (asg ev) ≠ 0) :
    ∃ q q' r r', Causal.new m = .ok q ∧ Causal.new m' = .ok q' ∧ Causal.causalQuery ch q T d e = .ok r ∧ Causal.causalQuery ch' q' T d e = .ok r' ∧
      (∀ v, v ∈ r.vars ↔ v ∈ T) ∧ (∀ v, v ∈ r'.vars ↔ v ∈ T) ∧ ∀ obs, FullObs r.dom obs → FullObs r'.dom obs ∧ r'.getValue obs = r.getValue obs := by
  obtain ⟨o, ho⟩ := SCM.Rep.endoOk h.rep h.valid (endo := B.inner) fun e he _ => SCM.Rep.inner_end h.rep e he
  have hoi : ∀ v, v ∈ o ↔ v ∈ B.inner := fun v => by rw [ho.mem_iff, h.rep.nodes]; exact ⟨fun h => h.2, fun h => ⟨(BN.mem_inner.1 h).1, h⟩⟩
  have hst : ∀ v ∈ o, B'.states v = B.states v := fun v hv => hs.states v ((hoi v).1 hv)
  have hmo : ∀ b : V → S, (∀ v ∈ o, b v ∈ B.states v) → B.marg o.dropLast b ≠ 0 := fun b hb => by
    obtain ⟨c, c1, c2⟩ := h.valid.complete (L := o) (a := b) fun v hv _ => hb v hv
    rw [h.valid.marg_dep _ b c fun v hv => (c2 v (List.dropLast_subset o hv)).symm]
    refine prefix_pos h.valid hnn (o := o) ho.nodup (fun v hv => (BN.mem_inner.1 ((hoi v).1 hv)).1) c1 ?_ fun w hw => List.dropLast_subset o hw
    rw [B.marg_ext hoi]; exact hpos c fun v hv => c1 v (BN.mem_inner.1 hv).1
  have hdd : ∀ v ∈ Dict.keys d, v ∈ o := fun v hv => (hoi v).2 (hdk v hv)
  refine same_interventional hch hch' h h' hs hT hTn hTv hd hdk hev (fun v hv => (hek v hv).1) hee hp fun vs _ hvs a ha => ?_
  have hvs' : ∀ v ∈ vs, v ∈ o ∧ v ∉ Dict.keys d := fun v hv => by
    rcases hvs v hv with h1 | h1
    · exact ⟨(hoi v).2 (hTv v h1).1, (hTv v h1).2.2⟩
    · exact ⟨(hoi v).2 (hek v h1).1, (hek v h1).2⟩
  rw [effect_of (D := B.states) (P := B.marg) ho (SCM.Rep.inner_end h.rep) h.valid h.norm hnn h.rep.nodes h.rep.parents (fun _ _ => rfl) h.valid.marg_dep
      (fun _ _ _ _ => rfl) hmo hdd hd.states hu hvs' ha,
    effect_of (D := B.states) (P := B.marg) ho (SCM.Rep.inner_end h.rep) h'.valid h'.norm hnn' (by rw [hs.nodes]; exact h.rep.nodes)
      (by rw [hs.nodes]; exact fun v hv p => by rw [hs.parents v hv]; exact h.rep.parents v hv p) hst h.valid.marg_dep
      (fun W hW b hb => ?_) hmo hdd hd.states hu hvs' ha]
  obtain ⟨c, c1, c2⟩ := h.valid.complete (L := W) (a := b) fun v hv _ => hb v hv
  obtain ⟨c', d1, d2⟩ := h'.valid.complete (L := o) (a := c) fun v hv _ => by rw [hst v hv]; exact c1 v (BN.mem_inner.1 ((hoi v).1 hv)).1
  have hR : ∀ t ∈ o.filter (· ∉ W), t ∈ B.nodes := fun t ht => (BN.mem_inner.1 ((hoi t).1 (List.mem_filter.1 ht).1)).1
  rw [h'.valid.marg_dep W b c' fun v hv => by rw [d2 v (hW v hv), c2 v hv], h.valid.marg_dep W b c fun v hv => (c2 v hv).symm,
    ← h'.valid.sum_marg (T := o.filter (· ∉ W)) (by rw [hs.nodes]; exact hR) (ho.nodup.filter _) (fun t ht => by simpa using (List.mem_filter.1 ht).2),
    ← h.valid.sum_marg (T := o.filter (· ∉ W)) hR (ho.nodup.filter _) (fun t ht => by simpa using (List.mem_filter.1 ht).2)]
  refine sumOver_rel (o := o) (fun x x' hx => ?_) _ (fun t ht => hst t (List.mem_filter.1 ht).1) fun v hv _ => ⟨d2 v hv, d1 v (by
    rw [hs.nodes]; exact (BN.mem_inner.1 ((hoi v).1 hv)).1)⟩
  have hoW : ∀ v, v ∈ o.filter (· ∉ W) ++ W ↔ v ∈ B.inner := fun v => by
    simp only [List.mem_append, List.mem_filter, decide_eq_true_eq, hoi]
    exact ⟨fun hv => hv.elim (·.1) fun hv => (hoi v).1 (hW v hv), fun hv => by by_cases hw : v ∈ W <;> simp [hw, hv]⟩
  rw [B'.marg_ext hoW, B.marg_ext hoW, h.valid.marg_dep B.inner x' x fun v hv => (hx v ((hoi v).2 hv)).1.symm]
  exact hsame x fun v hv => by rw [← hst v ((hoi v).2 hv)]; exact (hx v ((hoi v).2 hv)).2

/-! ### With the learnt models -/

/-- **C103** what an intervention on variables not confounded with their children does in a learnt model is given by the frequencies of the records. -/
theorem C103_effect {φ : K →+* ℝ} (hφ : StrictMono φ) {m : SCM II LL} {B : BN V S K} (h : GdccModel m B) {fr : Frame V S} {sub : V → V → Bool}
    (hd : GdccData m B fr sub) (hrows : fr.rows ≠ []) (hc : Compatible m B fr.rows) {m' : SCM II LL} {B' : BN V S K} (hm : Likeliest m B fr.rows m' B')
    {o : List V} (ho : EndoOk m.base.graph m.endogenous o) {d : Obs V S} (hdo : EvOk B d) (hdk : ∀ v ∈ Dict.keys d, v ∈ m.endogenous)
    (hu : Unconfounded m.base.graph m.endogenous (Dict.keys d)) (hpos : ∀ a : V → S, (∀ v ∈ o, a v ∈ B.states v) → empirical K fr.rows o.dropLast a ≠ 0)
    {W : List V} (hW : ∀ w ∈ W, w ∈ B.nodes ∧ w ∈ m.endogenous ∧ w ∉ Dict.keys d) {a : V → S} (ha : ∀ w ∈ W, a w ∈ B.states w) :
    B'.doMarg d W a = effectOf B.states (empirical K fr.rows) m.base.graph m.endogenous o d W a := by
  have hf := hm.refit
  have hoi : ∀ v, v ∈ o ↔ v ∈ B.nodes ∧ v ∈ m.endogenous := fun v => by rw [ho.mem_iff, h.rep.nodes]
  have hend : ∀ e ∈ m.base.graph.edges, e.2 ∈ m.endogenous := fun e he => by
    by_contra hx
    have hn : e.2 ∈ m.base.graph.nodes := (h.rep.wf.ends _ he).2
    have hx' : e.2 ∈ m.exogenous := by simpa [SCM.exogenous, hx] using hn
    have := (h.rep.parents e.2 (h.rep.nodes ▸ hn) e.1).2 he
    rw [h.roots _ hx'] at this
    cases this
  exact effect_of ho hend hf.valid hf.norm hf.nonneg (by rw [hf.nodes]; exact h.rep.nodes) (by rw [hf.nodes, hf.parents]; exact h.rep.parents)
    (fun v _ => by rw [hf.states]) (empirical_dep _) (fun W hW b hb => C87_frequencies hφ h hd hrows hc hm (fun w hw => (hoi w).1 (hW w hw)) hb) hpos
    (fun v hv => (hoi v).2 ⟨hdo.nodes v hv, hdk v hv⟩) hdo.states hu (fun w hw => ⟨(hoi w).2 ⟨(hW w hw).1, (hW w hw).2.1⟩, (hW w hw).2.2⟩) ha

/-- **C103** the bounds of `GDCC` for interventions on variables not confounded with their children: low and up are the same number, given by the
frequencies of the records, whatever the number of models and the random numbers. -/
theorem C103_identified {φ : K →+* ℝ} (hφ : StrictMono φ) {ch : Choices V} (hch : ch.Ok) {m : SCM II LL} {B : BN V S K} (h : GdccModel m B) {fr : Frame V S}
    {sub : V → V → Bool} (hd : GdccData m B fr sub) (hrows : fr.rows ≠ []) (hc : Compatible m B fr.rows)
    {opt : Option Nat → List (Fl K) → (List K → Py (Fl ℝ)) → List K} {max : Option Nat} (hopt : FindsLeast φ opt max m B fr)
    {ts : List (V → List K)} (hts : ts ≠ [])
    (ht : ∀ t ∈ ts, ∀ x ∈ m.exogenous, Draws false (famDom m.base.graph B.states x) (m.base.graph.pred x) (t x))
    (N : BoundNames V S) (wt : VType) {o : List V} (ho : EndoOk m.base.graph m.endogenous o) {T : List V} (hT0 : T ≠ []) (hTn : T.Nodup) (hb : N.bound ∉ T)
    {d ev : Obs V S} (hTv : ∀ t ∈ T, t ∈ B.nodes ∧ t ∈ m.endogenous ∧ t ∉ Dict.keys ev ∧ t ∉ Dict.keys d)
    (hdo : EvOk B d) (hdk : ∀ v ∈ Dict.keys d, v ∈ m.endogenous) (hu : Unconfounded m.base.graph m.endogenous (Dict.keys d))
    (hev : EvOk B ev) (hek : ∀ v ∈ Dict.keys ev, v ∈ m.endogenous ∧ v ∉ Dict.keys d) {e : Option (Obs V S)} (hee : e.getD [] = ev)
    (hpos : ∀ a : V → S, (∀ v ∈ o, a v ∈ B.states v) → empirical K fr.rows o.dropLast a ≠ 0)
    (hp : effectOf B.states (empirical K fr.rows) m.base.graph m.endogenous o d (Dict.keys ev) (asg ev) ≠ 0) :
    ∃ ob ob' r, Gdcc.compileObj (fun x => Real.log (φ x)) sub opt m max fr (ts.map fun t x => (t x).map Fl.fin) true = .ok ob ∧
      ob.query N (storeOf wt) (fun i => causalQuery ch i T d e) = .ok (ob', .interval r) ∧
      (∀ v, v ∈ Dict.keys (r.dom N) ↔ v ∈ T) ∧ (∀ p ∈ r.dom N, p.2 = B.states p.1) ∧
      ∀ obs, FullObs (r.dom N) obs → ∃ x, x = effectOf B.states (empirical K fr.rows) m.base.graph m.endogenous o d (T ++ Dict.keys ev) (asg (ev ++ obs)) /
          effectOf B.states (empirical K fr.rows) m.base.graph m.endogenous o d (Dict.keys ev) (asg ev) ∧
        r.getValue ((N.bound, N.low) :: obs) = .ok (.fin x) ∧ r.getValue ((N.bound, N.up) :: obs) = .ok (.fin x) := by
  have hst : ∀ v ∈ Dict.keys ev, (asg ev : V → S) v ∈ B.states v := fun v hv => by
    obtain ⟨s, hsv⟩ := Option.isSome_iff_exists.1 (Dict.get?_isSome.2 hv)
    rw [asg, over_of_get? hsv]; exact hev.states v s hsv
  have hone : ∀ m' B', Likeliest m B fr.rows m' B' → B'.doMarg d (Dict.keys ev) (asg ev) =
      effectOf B.states (empirical K fr.rows) m.base.graph m.endogenous o d (Dict.keys ev) (asg ev) := fun m' B' hm =>
    C103_effect hφ h hd hrows hc hm ho hdo hdk hu hpos (fun w hw => ⟨hev.nodes w hw, hek w hw⟩) hst
  obtain ⟨ms, Bs, ob, ob', r, q1, q2, q3, q4, q5, q6, q7⟩ := C84_query hφ hch h hd hopt hts ht N wt (T := T) (d := d) (ev := ev) (e := e) hT0 hTn
    (fun t ht => ⟨(hTv t ht).1, (hTv t ht).2.2⟩) hb hdo hev hee (fun m' B' hm => by rw [hone m' B' hm]; exact hp)
  refine ⟨ob, ob', r, q3, q4, q5, q6, fun obs hobs => ⟨_, rfl, ?_⟩⟩
  obtain ⟨lo, hi, hl, e1, e2⟩ := q7 obs hobs
  have hval : ∀ y ∈ Bs.map (fun B' => B'.doMarg d (T ++ Dict.keys ev) (asg (ev ++ obs)) / B'.doMarg d (Dict.keys ev) (asg ev)),
      y = effectOf B.states (empirical K fr.rows) m.base.graph m.endogenous o d (T ++ Dict.keys ev) (asg (ev ++ obs)) /
          effectOf B.states (empirical K fr.rows) m.base.graph m.endogenous o d (Dict.keys ev) (asg ev) := by
    intro y hy
    obtain ⟨B', hB', rfl⟩ := List.mem_map.1 hy
    obtain ⟨m', _, hm⟩ : ∃ m' ∈ ms, Likeliest m B fr.rows m' B' := by
      clear hl hy q7 q1
      induction q2 with
      | nil => cases hB'
      | @cons m1 B1 ms Bs h1 _ ih =>
        rcases List.mem_cons.1 hB' with rfl | hB'
        · exact ⟨m1, List.mem_cons_self, h1⟩
        · obtain ⟨m', i1, i2⟩ := ih hB'
          exact ⟨m', List.mem_cons_of_mem _ i1, i2⟩
    rw [hone m' B' hm, C103_effect hφ h hd hrows hc hm ho hdo hdk hu hpos (fun w hw => ?_) fun v hv => ?_]
    · rcases List.mem_append.1 hw with hw | hw
      · exact ⟨(hTv w hw).1, (hTv w hw).2.1, (hTv w hw).2.2.2⟩
      · exact ⟨hev.nodes w hw, hek w hw⟩
    · by_cases hve : v ∈ Dict.keys ev
      · obtain ⟨s, hsv⟩ := Option.isSome_iff_exists.1 (Dict.get?_isSome.2 hve)
        rw [asg, over_of_get? (s := s) (by rw [Dict.get?_append, hsv]; rfl)]; exact hev.states v s hsv
      · have hvT : v ∈ T := (List.mem_append.1 hv).resolve_right hve
        obtain ⟨st, hst'⟩ := Dict.mem_keys.1 ((q5 v).2 hvT)
        obtain ⟨s, hs1, hs2⟩ := hobs _ hst'
        rw [asg, over_of_get? (s := s) (by rw [Dict.get?_append, Dict.get?_eq_none.2 hve]; exact hs2), ← q6 _ hst']
        exact hs1
  rw [e1, e2, hval lo hl.1, hval hi hl.2.1]
  exact ⟨rfl, rfl⟩

end Props
end Verif
