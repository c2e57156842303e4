import Verif.Inference.VELemmas
import Verif.Graph.OrderingLemmas
import Mathlib.Algebra.Order.BigOperators.GroupWithZero.List

/-!
# Queries: helper lemmas
-/

set_option linter.unusedSectionVars false
set_option linter.unusedSimpArgs false

namespace Verif
open Relation

section
variable {V S K : Type} [DecidableEq V] [DecidableEq S] [CommSemiring K]

theorem BN.Valid.joint_dep {B : BN V S K} (hB : B.Valid) : DependsOn B.joint B.nodes := by
  intro a b hab
  rw [BN.joint, BN.joint]
  congr 1
  refine List.map_congr_left fun v hv => hB.scope v hv _ _ fun w hw => hab w ?_
  rcases List.mem_cons.1 hw with rfl | hw
  · exact hv
  · exact hB.parents v hv w hw

/-- A marginal looks only at its variables. -/
theorem BN.Valid.marg_dep {B : BN V S K} (hB : B.Valid) (vs : List V) : DependsOn (B.marg vs) vs := by
  refine (hB.joint_dep.sumOver _).mono fun v hv => ?_
  obtain ⟨h1, h2⟩ := List.mem_filter.1 hv
  have : v ∉ B.nodes ∨ v ∈ vs := by simpa using h2
  exact this.resolve_left (not_not.2 h1)

/-- Only the set of variables matters. -/
theorem BN.marg_congr_set {B : BN V S K} {vs ws : List V} (h : ∀ v ∈ B.nodes, v ∈ vs ↔ v ∈ ws) : B.marg vs = B.marg ws := by
  funext a
  rw [BN.marg, BN.marg]
  congr 1
  refine List.filter_congr fun v hv => ?_
  simp [h v hv]

/-- Summing some of the variables out of a marginal. -/
theorem BN.Valid.sum_marg {B : BN V S K} (hB : B.Valid) {T W : List V} (hT : ∀ t ∈ T, t ∈ B.nodes) (hTn : T.Nodup)
    (hd : ∀ t ∈ T, t ∉ W) (a : V → S) : sumOver B.states T (B.marg (T ++ W)) a = B.marg W a := by
  have : B.marg (T ++ W) = sumOver B.states (B.nodes.filter (· ∉ T ++ W)) B.joint := rfl
  rw [this, ← sumOver_append, BN.marg]
  refine sumOver_perm ?_ ?_ _ _
  · refine (List.perm_ext_iff_of_nodup ?_ (hB.nodes.filter _)).2 fun v => ?_
    · refine List.nodup_append.2 ⟨hTn, hB.nodes.filter _, fun x hx y hy => ?_⟩
      rintro rfl
      simp at hy
      exact hy.2.1 hx
    · simp only [List.mem_append, List.mem_filter, decide_eq_true_eq, not_or]
      constructor
      · rintro (h | ⟨h1, h2, h3⟩)
        · exact ⟨hT v h, hd v h⟩
        · exact ⟨h1, h3⟩
      · rintro ⟨h1, h2⟩
        by_cases h : v ∈ T
        · exact .inl h
        · exact .inr ⟨h1, h, h2⟩
  · refine List.nodup_append.2 ⟨hTn, hB.nodes.filter _, fun x hx y hy => ?_⟩
    rintro rfl
    simp at hy
    exact hy.2.1 hx

end

section
variable {V S K : Type} [DecidableEq V] [DecidableEq S] [CommSemiring K] [LinearOrder K] [IsStrictOrderedRing K]

theorem sumOver_nonneg {D : V → List S} {xs : List V} (hx : xs.Nodup) {f : (V → S) → K} {a : V → S}
    (h : ∀ b, (∀ v, v ∉ xs → b v = a v) → (∀ v ∈ xs, b v ∈ D v) → 0 ≤ f b) : 0 ≤ sumOver D xs f a := by
  induction xs generalizing a with
  | nil => exact h a (fun _ _ => rfl) (by simp)
  | cons x xs ih =>
    rw [List.nodup_cons] at hx
    rw [sumOver_cons]
    refine List.sum_nonneg fun y hy => ?_
    obtain ⟨s, hs, rfl⟩ := List.mem_map.1 hy
    refine ih hx.2 fun b hb1 hb2 => h b (fun v hv => ?_) fun v hv => ?_
    · rw [hb1 v (fun hc => hv (List.mem_cons_of_mem _ hc)), upd_ne]
      rintro rfl; exact hv List.mem_cons_self
    · rcases List.mem_cons.1 hv with rfl | hv
      · rw [hb1 v hx.1, upd_same]; exact hs
      · exact hb2 v hv

/-- If a sum of non-negative terms vanishes so does each term. -/
theorem sumOver_eq_zero {D : V → List S} {xs : List V} (hx : xs.Nodup) {f : (V → S) → K} {a : V → S}
    (h : ∀ b, (∀ v, v ∉ xs → b v = a v) → (∀ v ∈ xs, b v ∈ D v) → 0 ≤ f b) (hz : sumOver D xs f a = 0)
    {b : V → S} (hb1 : ∀ v, v ∉ xs → b v = a v) (hb2 : ∀ v ∈ xs, b v ∈ D v) : f b = 0 := by
  induction xs generalizing a with
  | nil =>
    have : b = a := by funext v; exact hb1 v (by simp)
    rw [this]; exact hz
  | cons x xs ih =>
    rw [List.nodup_cons] at hx
    rw [sumOver_cons] at hz
    have hext : ∀ s ∈ D x, ∀ c : V → S, (∀ v, v ∉ xs → c v = upd a x s v) → (∀ v ∈ xs, c v ∈ D v) → 0 ≤ f c := by
      intro s hs c hc1 hc2
      refine h c (fun v hv => ?_) fun v hv => ?_
      · rw [hc1 v (fun hc => hv (List.mem_cons_of_mem _ hc)), upd_ne]
        rintro rfl; exact hv List.mem_cons_self
      · rcases List.mem_cons.1 hv with rfl | hv
        · rw [hc1 v hx.1, upd_same]; exact hs
        · exact hc2 v hv
    have hbx : b x ∈ D x := hb2 x List.mem_cons_self
    have h0 : sumOver D xs f (upd a x (b x)) = 0 := by
      have hnn : ∀ y ∈ (D x).map (fun s => sumOver D xs f (upd a x s)), 0 ≤ y := by
        intro y hy
        obtain ⟨s, hs, rfl⟩ := List.mem_map.1 hy
        exact sumOver_nonneg hx.2 (hext s hs)
      exact (List.all_zero_of_le_zero_le_of_sum_eq_zero hnn hz) (List.mem_map.2 ⟨b x, hbx, rfl⟩)
    refine ih hx.2 (hext _ hbx) h0 (fun v hv => ?_) fun v hv => hb2 v (List.mem_cons_of_mem _ hv)
    by_cases hvx : v = x
    · subst hvx; rw [upd_same]
    · rw [upd_ne _ _ hvx]
      exact hb1 v (by simp [hvx, hv])

theorem BN.marg_nonneg {B : BN V S K} (hB : B.Valid) (hnn : B.NonNeg) {vs : List V} {a : V → S}
    (ha : ∀ v ∈ vs, v ∈ B.nodes → a v ∈ B.states v) : 0 ≤ B.marg vs a := by
  refine sumOver_nonneg (hB.nodes.filter _) fun b hb1 hb2 => ?_
  refine List.prod_nonneg fun x hx => ?_
  obtain ⟨v, hv, rfl⟩ := List.mem_map.1 hx
  refine hnn v hv b fun w hw => ?_
  by_cases hwv : w ∈ vs
  · rw [hb1 w (by simp [hwv])]; exact ha w hwv hw
  · exact hb2 w (by simp [hwv, hw])

/-- Impossible for fewer variables implies impossible for more. -/
theorem BN.marg_zero {B : BN V S K} (hB : B.Valid) (hnn : B.NonNeg) {T W : List V} (hT : ∀ t ∈ T, t ∈ B.nodes)
    (hTn : T.Nodup) (hd : ∀ t ∈ T, t ∉ W) {a : V → S} (ha : ∀ v ∈ T ++ W, v ∈ B.nodes → a v ∈ B.states v)
    (hz : B.marg W a = 0) : B.marg (T ++ W) a = 0 := by
  rw [← hB.sum_marg hT hTn hd] at hz
  refine sumOver_eq_zero hTn (fun b hb1 hb2 => BN.marg_nonneg hB hnn fun v hv hvn => ?_) hz (b := a) (fun _ _ => rfl)
    fun v hv => ha v (List.mem_append_left _ hv) (hT v hv)
  by_cases hvT : v ∈ T
  · exact hb2 v hvT
  · rw [hb1 v hvT]; exact ha v hv hvn

end

variable {V S K : Type} [DecidableEq V] [DecidableEq S] [Nonempty S] [Field K] [LinearOrder K]

/-- Which nodes pruning keeps: those with a descendant (or themselves) among targets and observed nodes, and joined
to a target by a path through such nodes along edges that do not leave an observed node. -/
def Kept (g : DiGraph V) (T E : List V) (v : V) : Prop :=
  g.Needed (T ++ E) v ∧ ∃ t ∈ T, ReflTransGen (fun x y => g.Needed (T ++ E) x ∧ g.Needed (T ++ E) y ∧
    ((g.Edge x y ∧ x ∉ E) ∨ (g.Edge y x ∧ y ∉ E))) t v

theorem mem_kept {g : DiGraph V} (hg : g.WF) (ha : g.Acyclic) {T : List V} {ev : Obs V S} (hT : ∀ t ∈ T, t ∈ g.nodes)
    {v : V} : v ∈ kept g T ev ↔ v ∈ g.nodes ∧ Kept g T (Dict.keys ev) v := by
  set E := Dict.keys ev with hE
  set barren := g.barrenNodes (T ++ E) with hb
  set h := (g.removeOutgoing E).removeNodes barren with hh
  have hwf : h.WF := (hg.removeOutgoing E).removeNodes _
  have mb : ∀ v, v ∈ barren ↔ v ∈ g.nodes ∧ ¬ g.Needed (T ++ E) v := fun v => DiGraph.mem_barrenNodes hg ha
  have mhn : ∀ v, v ∈ h.nodes ↔ v ∈ g.nodes ∧ v ∉ barren := by
    intro v; simp [hh, DiGraph.removeNodes, DiGraph.removeOutgoing]
  have mhe : ∀ u v, (u, v) ∈ h.edges ↔ (u, v) ∈ g.edges ∧ u ∉ E ∧ u ∉ barren ∧ v ∉ barren := by
    intro u v
    simp only [hh, DiGraph.removeNodes, DiGraph.removeOutgoing, List.mem_filter, decide_eq_true_eq]; tauto
  have hTh : ∀ t ∈ T, t ∈ h.nodes := by
    intro t ht
    refine (mhn t).2 ⟨hT t ht, fun hc => ((mb t).1 hc).2 ⟨t, List.mem_append_left _ ht, .refl⟩⟩
  have hrel : h.UEdge = fun x y => g.Needed (T ++ E) x ∧ g.Needed (T ++ E) y ∧
      ((g.Edge x y ∧ x ∉ E) ∨ (g.Edge y x ∧ y ∉ E)) := by
    funext x y
    apply propext
    have hx : (x ∈ g.nodes → (x ∉ barren ↔ g.Needed (T ++ E) x)) := fun hx => by rw [mb]; simp [hx]
    have hy : (y ∈ g.nodes → (y ∉ barren ↔ g.Needed (T ++ E) y)) := fun hy => by rw [mb]; simp [hy]
    rw [DiGraph.UEdge, mhe, mhe]
    constructor
    · rintro (⟨h1, h2, h3, h4⟩ | ⟨h1, h2, h3, h4⟩)
      · exact ⟨(hx (hg.ends _ h1).1).1 h3, (hy (hg.ends _ h1).2).1 h4, .inl ⟨h1, h2⟩⟩
      · exact ⟨(hx (hg.ends _ h1).2).1 h4, (hy (hg.ends _ h1).1).1 h3, .inr ⟨h1, h2⟩⟩
    · rintro ⟨h3, h4, ⟨h1, h2⟩ | ⟨h1, h2⟩⟩
      · exact .inl ⟨h1, h2, (hx (hg.ends _ h1).1).2 h3, (hy (hg.ends _ h1).2).2 h4⟩
      · exact .inr ⟨h1, h2, (hy (hg.ends _ h1).1).2 h4, (hx (hg.ends _ h1).2).2 h3⟩
  rw [kept, mem_filter_not]
  refine and_congr_right fun hv => ?_
  rw [Kept, ← hrel]
  have hnb : g.Needed (T ++ E) v ↔ v ∉ barren := by rw [mb]; simp [hv]
  rw [hnb]
  have hirr : v ∈ irrelevant g T E ↔ (v ∈ barren ∨ v ∈ h.disconnectedNodes T) ∧ v ∉ T := by
    simp [irrelevant, ← hb, ← hh]; tauto
  rw [hirr, DiGraph.disconnectedNodes]
  simp only [List.mem_filter, Bool.not_eq_eq_eq_not, Bool.not_true, mhn]
  have hc := DiGraph.connected_iff hwf hTh (y := v)
  by_cases hvT : v ∈ T
  · have h1 := ((mhn v).1 (hTh v hvT)).2
    have h2 : ∃ t ∈ T, ReflTransGen h.UEdge t v := ⟨v, hvT, .refl⟩
    simp [hvT, h1, h2]
  · by_cases hvb : v ∈ barren
    · simp [hvb, hvT]
    · simp only [hvb, hvT, hv, false_or, not_false_eq_true, and_true, true_and]
      rw [← hc]; simp

variable {I : StoreImpl V S (Fl K)} {F : Type} [VEFactor F I]

namespace VEObj

/-- A well formed query compiles. -/
theorem compile_ok (o : VEObj F I) {T : List V} {ev : Obs V S} {m' : DagModel (Factor I) V S} (hTn : T.Nodup)
    (hdis : ∀ t ∈ T, t ∉ Dict.keys ev) (hn : ∀ v ∈ T ++ Dict.keys ev, v ∈ o.model.graph.nodes)
    (hm : minimalize o.model T ev = .ok m') :
    o.compile T (some ev) = (⟨o.model, some T, ev, some m', true⟩, .ok ()) := by
  rw [compile, if_neg (not_not.2 hTn)]
  simp only
  rw [if_neg (not_not.2 hdis), if_neg (not_not.2 hn)]
  simp only [hm]

theorem query_ok (o : VEObj F I) {ch : Choices V} {T : List V} {e : Option (Obs V S)} {ev : Obs V S} (hev : e.getD [] = ev)
    {m' : DagModel (Factor I) V S} (hTn : T.Nodup)
    (hdis : ∀ t ∈ T, t ∉ Dict.keys ev) (hn : ∀ v ∈ T ++ Dict.keys ev, v ∈ o.model.graph.nodes)
    (hm : minimalize o.model T ev = .ok m') :
    o.query ch T e = (⟨o.model, some T, ev, some m', true⟩, veRun ch m' T ev) := by
  rw [query, hev, compile_ok o hTn hdis hn hm]
  rfl

theorem queryCond_ok (o : VEObj F I) {ch : Choices V} {T C W : List V} (hW : ch.setOrd (T ++ C) = W)
    (hTC : ∀ t ∈ T, t ∉ C) {e : Option (Obs V S)} {ev : Obs V S} (hev : e.getD [] = ev)
    {m' : DagModel (Factor I) V S} (hTn : W.Nodup)
    (hdis : ∀ t ∈ W, t ∉ Dict.keys ev) (hn : ∀ v ∈ W ++ Dict.keys ev, v ∈ o.model.graph.nodes)
    (hm : minimalize o.model W ev = .ok m') :
    o.queryCond ch T C e = (⟨o.model, some W, ev, some m', true⟩, do
      let p ← veRun ch m' W ev
      let q ← p.marginalize T
      p.divide q) := by
  rw [queryCond, if_neg (not_not.2 hTC), hev, hW, compile_ok o hTn hdis hn hm]
  rfl

end VEObj

/-- The built-in heuristics are admissible, with any tie-breaking and any order of sets. -/
theorem builtin_ok (k : Ordering.Kind) (rnd : Nat → Nat) {so : List V → List V}
    (hso : ∀ l, (so l).Nodup ∧ ∀ v, v ∈ so l ↔ v ∈ l) : Choices.Ok ⟨Ordering.elimOrdering k rnd, so⟩ := by
  refine ⟨fun g rm sizes hg ha hn hr hs => ?_, hso⟩
  obtain ⟨o, h1, h2, _⟩ := Ordering.elimOrdering_ok hg ha (sizes := sizes) (size := fun v => (Dict.get? sizes v).getD 0) k
    (fun _ v hv => by
      obtain ⟨s, hs⟩ := Option.isSome_iff_exists.1 (Dict.get?_isSome.2 (hs v hv))
      simp [Dict.get, hs]) rnd hn hr
  exact ⟨o, h1, h2⟩

/-- The evidence part of the marginals does not look at the rest of the assignment. -/
theorem over_agree {ev : Obs V S} {vs : List V} {a b : V → S} (h : ∀ v ∈ vs, a v = b v) :
    ∀ v ∈ vs ++ Dict.keys ev, over ev a v = over ev b v := by
  intro v hv
  by_cases hk : v ∈ Dict.keys ev
  · obtain ⟨s, hs⟩ := Option.isSome_iff_exists.1 (Dict.get?_isSome.2 hk)
    rw [over_of_get? hs, over_of_get? hs]
  · rw [over_of_not_mem hk, over_of_not_mem hk]
    exact h v ((List.mem_append.1 hv).resolve_right hk)

end Verif

namespace Verif
variable {V S K : Type} [DecidableEq V] [DecidableEq S] [Nonempty S] [Field K] [LinearOrder K]
variable {I : StoreImpl V S (Fl K)} {F : Type} [VEFactor F I]

/-- The denominator is the sum of the numerators. -/
theorem veDen_eq {m : DagModel F V S} {B : BN V S K} (hr : Represents m B) (hB : B.Valid)
    {T : List V} (hT : ∀ t ∈ T, t ∈ B.nodes) (hTn : T.Nodup)
    {ev : Obs V S} (hdis : ∀ t ∈ T, t ∉ Dict.keys ev) (a : V → S) :
    veDen B m.graph T ev a = sumOver B.states T (veNum B m.graph T ev) a := by
  have hTg : ∀ t ∈ T, t ∈ m.graph.nodes := fun t ht => hr.nodes ▸ hT t ht
  obtain ⟨M, P, hs⟩ := irrelevant_spec hr.wf (hr.acyclic hB) (E := Dict.keys ev) hTg
  have hTk : ∀ t ∈ T, t ∈ kept m.graph T ev := hs.target
  have hkn : (kept m.graph T ev).Nodup := hr.wf.nodes.filter _
  have h1 : sumOver B.states T (veNum B m.graph T ev) a =
      sumOver B.states T (sumOver B.states ((kept m.graph T ev).filter (· ∉ T ++ Dict.keys ev))
        (prodT B.ctab (kept m.graph T ev))) (over ev a) := by
    exact sumOver_over hdis _ _
  rw [h1, ← sumOver_append, veDen]
  have hnd : (T ++ (kept m.graph T ev).filter (· ∉ T ++ Dict.keys ev)).Nodup := by
    refine List.nodup_append.2 ⟨hTn, hkn.filter _, fun x hx y hy => ?_⟩
    rintro rfl
    exact ((mem_filter_not _ _ _).1 hy).2 (List.mem_append_left _ hx)
  refine sumOver_perm ?_ (hkn.filter _) _ _
  refine (List.perm_ext_iff_of_nodup (hkn.filter _) hnd).2 fun v => ?_
  rw [List.mem_append, mem_filter_not, mem_filter_not, List.mem_append, not_or]
  constructor
  · rintro ⟨h1, h2⟩
    by_cases h : v ∈ T
    · exact .inl h
    · exact .inr ⟨h1, h, h2⟩
  · rintro (h | ⟨h1, h2, h3⟩)
    · exact ⟨hTk v h, hdis v h⟩
    · exact ⟨h1, h3⟩

theorem veNum_nonneg [IsStrictOrderedRing K] {m : DagModel F V S} {B : BN V S K} (hr : Represents m B) (hB : B.Valid)
    (hnn : B.NonNeg) (T : List V) (ev : Obs V S) (a : V → S) : 0 ≤ veNum B m.graph T ev a := by
  refine sumOver_nonneg ((hr.wf.nodes.filter _).filter _) fun b _ _ => ?_
  refine List.prod_nonneg fun x hx => ?_
  obtain ⟨v, hv, rfl⟩ := List.mem_map.1 hx
  exact hnn v (hr.nodes ▸ (List.mem_filter.1 hv).1) _ (hB.clamp_in b)

theorem veNum_zero [IsStrictOrderedRing K] {m : DagModel F V S} {B : BN V S K} (hr : Represents m B) (hB : B.Valid)
    (hnn : B.NonNeg) {T : List V} (hT : ∀ t ∈ T, t ∈ B.nodes) (hTn : T.Nodup)
    {ev : Obs V S} (hdis : ∀ t ∈ T, t ∉ Dict.keys ev) {a : V → S} (ha : ∀ t ∈ T, a t ∈ B.states t)
    (hz : veDen B m.graph T ev a = 0) : veNum B m.graph T ev a = 0 := by
  rw [veDen_eq hr hB hT hTn hdis] at hz
  exact sumOver_eq_zero hTn (fun b _ _ => veNum_nonneg hr hB hnn T ev b) hz (b := a) (fun _ _ => rfl) ha

/-- The denominator does not depend on the assignment. -/
theorem veDen_const {m : DagModel F V S} {B : BN V S K} (hr : Represents m B) (hB : B.Valid)
    {T : List V} (hT : ∀ t ∈ T, t ∈ B.nodes) (ev : Obs V S) (a b : V → S) :
    veDen B m.graph T ev a = veDen B m.graph T ev b := by
  have hTg : ∀ t ∈ T, t ∈ m.graph.nodes := fun t ht => hr.nodes ▸ hT t ht
  obtain ⟨M, P, hs⟩ := irrelevant_spec hr.wf (hr.acyclic hB) (E := Dict.keys ev) hTg
  have hCB : ∀ v ∈ kept m.graph T ev, v ∈ B.nodes := fun v hv => hr.nodes ▸ (List.mem_filter.1 hv).1
  have hdep : DependsOn (prodT B.ctab (kept m.graph T ev)) (kept m.graph T ev ++ Dict.keys ev) := by
    intro x y hxy
    refine prodT_congr fun v hv => hB.ctab_dep (hCB v hv) _ _ fun w hw => hxy w ?_
    rcases List.mem_cons.1 hw with rfl | hw
    · exact List.mem_append_left _ hv
    · by_cases hk : w ∈ Dict.keys ev
      · exact List.mem_append_right _ hk
      · exact List.mem_append_left _ (hs.keep v hv w ((hr.parents v (hCB v hv) w).1 hw) hk)
  refine (hdep.sumOver _) _ _ fun v hv => ?_
  obtain ⟨h1, h2⟩ := (mem_filter_not _ _ _).1 hv
  by_cases hk : v ∈ Dict.keys ev
  · obtain ⟨s, hs⟩ := Option.isSome_iff_exists.1 (Dict.get?_isSome.2 hk)
    rw [over_of_get? hs, over_of_get? hs]
  · exact absurd ((mem_filter_not _ _ _).2 ⟨(List.mem_append.1 h1).resolve_right hk, hk⟩) h2

end Verif
