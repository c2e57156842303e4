import Verif.Net.Sums
import Verif.Graph.Lemmas
import Verif.Inference.VE

/-!
# Pruning irrelevant nodes: helper lemmas
-/

set_option linter.unusedSectionVars false
set_option linter.unusedSimpArgs false

namespace Verif
open Relation

variable {V S K : Type} [DecidableEq V] [DecidableEq S]

/-- `M` barren, `C` and `P` not linked except through `E`: the sum splits in two. -/
theorem prune_split [CommSemiring K] {D : V → List S} {pa : V → List V} {φ : V → (V → S) → K} {N M C P E W : List V}
    (hT : Tables D pa φ N) (hp : N.Perm (M ++ (C ++ P)))
    (hM : ∀ v ∈ C ++ P, ∀ p ∈ pa v, p ∉ M) (hME : ∀ v ∈ M, v ∉ E)
    (hC : ∀ v ∈ C, ∀ p ∈ pa v, p ∉ E → p ∈ C) (hP : ∀ v ∈ P, ∀ p ∈ pa v, p ∉ E → p ∈ P)
    (hW : ∀ w ∈ W, w ∈ C) (a : V → S) :
    sumOver D (N.filter (· ∉ W ++ E)) (prodT φ N) a =
      sumOver D (C.filter (· ∉ W ++ E)) (prodT φ C) a * sumOver D (P.filter (· ∉ E)) (prodT φ P) a := by
  have hnd : (M ++ (C ++ P)).Nodup := hp.nodup_iff.1 hT.nodup
  have h1 := List.nodup_append'.1 hnd
  have h2 := List.nodup_append'.1 h1.2.1
  have hT' : Tables D pa φ (M ++ (C ++ P)) := hT.sublist hnd fun v hv => hp.mem_iff.2 hv
  have hMW : ∀ v ∈ M, v ∉ W := fun v hv hw => h1.2.2 hv (List.mem_append_left _ (hW v hw))
  have hPW : ∀ v ∈ P, v ∉ W := fun v hv hw => h2.2.2 (hW v hw) hv
  have e1 : (M ++ (C ++ P)).filter (· ∉ W ++ E) = M ++ (C.filter (· ∉ W ++ E) ++ P.filter (· ∉ E)) := by
    rw [List.filter_append, List.filter_append]
    congr 1
    · rw [List.filter_eq_self]
      intro v hv
      simp [hMW v hv, hME v hv]
    · congr 1
      refine List.filter_congr fun v hv => ?_
      simp [hPW v hv]
  have hp1 : (N.filter (· ∉ W ++ E)).Perm ((C.filter (· ∉ W ++ E) ++ P.filter (· ∉ E)) ++ M) := by
    have := hp.filter (fun v => decide (v ∉ W ++ E))
    rw [e1] at this
    exact this.trans List.perm_append_comm
  rw [sumOver_perm hp1 (hT.nodup.filter _), sumOver_append]
  have e2 : ∀ b, sumOver D M (prodT φ N) b = prodT φ C b * prodT φ P b := by
    intro b
    rw [sumOver_congr' (prodT_perm φ hp), hT'.sum_barren hM, prodT_append]
  rw [sumOver_congr' e2]
  have sC : ∀ v ∈ C, DependsOn (φ v) (v :: pa v) := fun v hv => hT'.scope v (by simp [hv])
  have sP : ∀ v ∈ P, DependsOn (φ v) (v :: pa v) := fun v hv => hT'.scope v (by simp [hv])
  refine sumOver_mul (DependsOn.prodT (sc := fun u => u :: pa u) sC) (DependsOn.prodT (sc := fun u => u :: pa u) sP)
    ?_ ?_ a
  · intro y hy hys
    obtain ⟨hyP, hyE⟩ := List.mem_filter.1 hy
    simp only [decide_eq_true_eq] at hyE
    obtain ⟨u, hu, hyu⟩ := List.mem_flatMap.1 hys
    rcases List.mem_cons.1 hyu with rfl | hyu
    · exact h2.2.2 hu hyP
    · exact h2.2.2 (hC u hu y hyu hyE) hyP
  · intro y hy hys
    obtain ⟨hyC, hyE⟩ := List.mem_filter.1 hy
    simp only [decide_eq_true_eq, List.mem_append, not_or] at hyE
    obtain ⟨u, hu, hyu⟩ := List.mem_flatMap.1 hys
    rcases List.mem_cons.1 hyu with rfl | hyu
    · exact h2.2.2 hyC hu
    · exact h2.2.2 hyC (hP u hu y hyu hyE.2)

namespace DiGraph

theorem connected_iff {g : DiGraph V} (hg : g.WF) {T : List V} (hT : ∀ t ∈ T, t ∈ g.nodes) {y : V} :
    g.connected T y = true ↔ ∃ t ∈ T, ReflTransGen g.UEdge t y := by
  rw [connected, Bool.or_eq_true, List.any_eq_true]
  simp only [decide_eq_true_eq]
  constructor
  · rintro (h | ⟨t, ht, h⟩)
    · exact ⟨y, h, .refl⟩
    · exact ⟨t, ht, (mem_component hg (hT t ht)).1 h⟩
  · rintro ⟨t, ht, h⟩
    exact .inr ⟨t, ht, (mem_component hg (hT t ht)).2 h⟩

end DiGraph

/-- What `irrelevant` computes: the nodes that are barren, and those not linked to the target by a path of needed
nodes that does not leave an observed node. -/
structure PruneSpec (g : DiGraph V) (T E : List V) (M C P : List V) : Prop where
  perm : g.nodes.Perm (M ++ (C ++ P))
  barren : ∀ v ∈ C ++ P, ∀ p, g.Edge p v → p ∉ M
  obs : ∀ v ∈ M, v ∉ E
  keep : ∀ v ∈ C, ∀ p, g.Edge p v → p ∉ E → p ∈ C
  drop : ∀ v ∈ P, ∀ p, g.Edge p v → p ∉ E → p ∈ P
  target : ∀ t ∈ T, t ∈ C

theorem irrelevant_spec {g : DiGraph V} (hg : g.WF) (ha : g.Acyclic) {T E : List V} (hT : ∀ t ∈ T, t ∈ g.nodes) :
    ∃ M P, PruneSpec g T E M (g.nodes.filter (· ∉ irrelevant g T E)) P := by
  set barren := g.barrenNodes (T ++ E) with hb
  set h := (g.removeOutgoing E).removeNodes barren with hh
  have hwf : h.WF := (hg.removeOutgoing E).removeNodes _
  have mb : ∀ v, v ∈ barren ↔ v ∈ g.nodes ∧ ¬ g.Needed (T ++ E) v := fun v => DiGraph.mem_barrenNodes hg ha
  have mhn : ∀ v, v ∈ h.nodes ↔ v ∈ g.nodes ∧ v ∉ barren := by
    intro v; simp [hh, DiGraph.removeNodes, DiGraph.removeOutgoing]
  have mhe : ∀ u v, (u, v) ∈ h.edges ↔ (u, v) ∈ g.edges ∧ u ∉ E ∧ u ∉ barren ∧ v ∉ barren := by
    intro u v; simp [hh, DiGraph.removeNodes, DiGraph.removeOutgoing, and_assoc]; tauto
  have hTh : ∀ t ∈ T, t ∈ h.nodes := by
    intro t ht
    refine (mhn t).2 ⟨hT t ht, fun hc => ((mb t).1 hc).2 ⟨t, List.mem_append_left _ ht, .refl⟩⟩
  have mirr : ∀ v, v ∈ g.nodes → (v ∉ irrelevant g T E ↔ v ∉ barren ∧ ∃ t ∈ T, ReflTransGen h.UEdge t v) := by
    intro v hv
    have hirr : v ∈ irrelevant g T E ↔ (v ∈ barren ∨ v ∈ h.disconnectedNodes T) ∧ v ∉ T := by
      simp [irrelevant, ← hb, ← hh]; tauto
    rw [hirr, DiGraph.disconnectedNodes]
    simp only [List.mem_filter, Bool.not_eq_eq_eq_not, Bool.not_true, mhn]
    have hc := DiGraph.connected_iff hwf hTh (y := v)
    by_cases hvT : v ∈ T
    · have h1 := ((mhn v).1 (hTh v hvT)).2
      have h2 : ∃ t ∈ T, ReflTransGen h.UEdge t v := ⟨v, hvT, .refl⟩
      simp [hvT, h1, h2]
    · by_cases hvb : v ∈ barren
      · simp [hvb, hvT]
      · simp only [hvb, hvT, hv, false_or, not_false_eq_true, and_true, true_and]
        rw [← hc]; simp
  have needPa : ∀ v p, g.Edge p v → v ∉ barren → p ∉ barren := by
    intro v p hpv hvb hpb
    have hvn : v ∈ g.nodes := (hg.ends _ hpv).2
    have : g.Needed (T ++ E) v := by
      by_contra hc
      exact hvb ((mb v).2 ⟨hvn, hc⟩)
    obtain ⟨s, hs, hr⟩ := this
    exact ((mb p).1 hpb).2 ⟨s, hs, hr.head hpv⟩
  set M := g.nodes.filter (· ∈ barren) with hM
  set C := g.nodes.filter (· ∉ irrelevant g T E) with hC
  set P := g.nodes.filter (fun v => v ∈ irrelevant g T E ∧ v ∉ barren) with hP
  have mC : ∀ v, v ∈ C ↔ v ∈ g.nodes ∧ v ∉ irrelevant g T E := by intro v; simp [hC]
  have mP : ∀ v, v ∈ P ↔ v ∈ g.nodes ∧ v ∈ irrelevant g T E ∧ v ∉ barren := by intro v; simp [hP]
  have mM : ∀ v, v ∈ M ↔ v ∈ g.nodes ∧ v ∈ barren := by intro v; simp [hM]
  have link : ∀ v p, g.Edge p v → p ∉ E → v ∉ barren → h.UEdge v p := by
    intro v p hpv hpE hvb
    exact .inr ((mhe p v).2 ⟨hpv, hpE, needPa v p hpv hvb, hvb⟩)
  refine ⟨M, P, ?_, ?_, ?_, ?_, ?_, ?_⟩
  · rw [List.perm_ext_iff_of_nodup hg.nodes]
    · intro v
      simp only [List.mem_append, mM, mC, mP]
      by_cases h1 : v ∈ barren
      · constructor
        · intro hv; exact .inl ⟨hv, h1⟩
        · rintro (h | h | h) <;> exact h.1
      · constructor
        · intro hv
          by_cases h2 : v ∈ irrelevant g T E
          · exact .inr (.inr ⟨hv, h2, h1⟩)
          · exact .inr (.inl ⟨hv, h2⟩)
        · rintro (h | h | h) <;> exact h.1
    · refine List.nodup_append'.2 ⟨hg.nodes.filter _, List.nodup_append'.2 ⟨hg.nodes.filter _, hg.nodes.filter _, ?_⟩, ?_⟩
      · intro v h1 h2
        exact ((mC v).1 h1).2 ((mP v).1 h2).2.1
      · intro v h1 h2
        rcases List.mem_append.1 h2 with h2 | h2
        · obtain ⟨h3, h4⟩ := (mC v).1 h2
          exact ((mirr v h3).1 h4).1 ((mM v).1 h1).2
        · exact ((mP v).1 h2).2.2 ((mM v).1 h1).2
  · intro v hv p hpv hpM
    have hvb : v ∉ barren := by
      rcases List.mem_append.1 hv with hv | hv
      · obtain ⟨h3, h4⟩ := (mC v).1 hv
        exact ((mirr v h3).1 h4).1
      · exact ((mP v).1 hv).2.2
    exact needPa v p hpv hvb ((mM p).1 hpM).2
  · intro v hv hvE
    exact ((mb v).1 ((mM v).1 hv).2).2 ⟨v, List.mem_append_right _ hvE, .refl⟩
  · intro v hv p hpv hpE
    obtain ⟨h3, h4⟩ := (mC v).1 hv
    obtain ⟨h5, t, ht, hr⟩ := (mirr v h3).1 h4
    have hpn : p ∈ g.nodes := (hg.ends _ hpv).1
    exact (mC p).2 ⟨hpn, (mirr p hpn).2 ⟨needPa v p hpv h5, t, ht, hr.tail (link v p hpv hpE h5)⟩⟩
  · intro v hv p hpv hpE
    obtain ⟨h3, h4, h5⟩ := (mP v).1 hv
    have hpn : p ∈ g.nodes := (hg.ends _ hpv).1
    refine (mP p).2 ⟨hpn, ?_, needPa v p hpv h5⟩
    by_contra hc
    obtain ⟨_, t, ht, hr⟩ := (mirr p hpn).1 hc
    exact (mirr v h3).2 ⟨h5, t, ht, hr.tail (link v p hpv hpE h5).symm⟩ h4
  · intro t ht
    exact (mC t).2 ⟨hT t ht, (mirr t (hT t ht)).2 ⟨((mhn t).1 (hTh t ht)).2, t, ht, .refl⟩⟩

end Verif
