import Verif.Net.Prune
import Verif.Net.Clamp

/-!
# Separated groups of nodes: helper lemmas
-/

set_option linter.unusedSectionVars false
set_option linter.unusedSimpArgs false

namespace Verif
open Relation

variable {V S K : Type} [DecidableEq V] [DecidableEq S]

/-- `M` barren, `C` and `P` not linked except through `E`: the sum splits in two. -/
theorem sep_split [CommSemiring K] {D : V → List S} {pa : V → List V} {φ : V → (V → S) → K} {N M C P E W U : List V}
    (hT : Tables D pa φ N) (hp : N.Perm (M ++ (C ++ P)))
    (hM : ∀ v ∈ C ++ P, ∀ p ∈ pa v, p ∉ M) (hME : ∀ v ∈ M, v ∉ E)
    (hC : ∀ v ∈ C, ∀ p ∈ pa v, p ∉ E → p ∈ C) (hP : ∀ v ∈ P, ∀ p ∈ pa v, p ∉ E → p ∈ P)
    (hW : ∀ w ∈ W, w ∈ C) (hU : ∀ u ∈ U, u ∈ P) (a : V → S) :
    sumOver D (N.filter (· ∉ W ++ (U ++ E))) (prodT φ N) a =
      sumOver D (C.filter (· ∉ W ++ E)) (prodT φ C) a * sumOver D (P.filter (· ∉ U ++ E)) (prodT φ P) a := by
  have hnd : (M ++ (C ++ P)).Nodup := hp.nodup_iff.1 hT.nodup
  have h1 := List.nodup_append'.1 hnd
  have h2 := List.nodup_append'.1 h1.2.1
  have hT' : Tables D pa φ (M ++ (C ++ P)) := hT.sublist hnd fun v hv => hp.mem_iff.2 hv
  have hMW : ∀ v ∈ M, v ∉ W := fun v hv hw => h1.2.2 hv (List.mem_append_left _ (hW v hw))
  have hMU : ∀ v ∈ M, v ∉ U := fun v hv hw => h1.2.2 hv (List.mem_append_right _ (hU v hw))
  have hPW : ∀ v ∈ P, v ∉ W := fun v hv hw => h2.2.2 (hW v hw) hv
  have hCU : ∀ v ∈ C, v ∉ U := fun v hv hw => h2.2.2 hv (hU v hw)
  have e1 : (M ++ (C ++ P)).filter (· ∉ W ++ (U ++ E)) = M ++ (C.filter (· ∉ W ++ E) ++ P.filter (· ∉ U ++ E)) := by
    rw [List.filter_append, List.filter_append]
    congr 1
    · rw [List.filter_eq_self]
      intro v hv
      simp [hMW v hv, hME v hv, hMU v hv]
    · congr 1
      · refine List.filter_congr fun v hv => ?_
        simp [hCU v hv]
      · refine List.filter_congr fun v hv => ?_
        simp [hPW v hv]
  have hp1 : (N.filter (· ∉ W ++ (U ++ E))).Perm ((C.filter (· ∉ W ++ E) ++ P.filter (· ∉ U ++ E)) ++ M) := by
    have := hp.filter (fun v => decide (v ∉ W ++ (U ++ E)))
    rw [e1] at this
    exact this.trans List.perm_append_comm
  rw [sumOver_perm hp1 (hT.nodup.filter _), sumOver_append]
  have e2 : ∀ b, sumOver D M (prodT φ N) b = prodT φ C b * prodT φ P b := by
    intro b
    rw [sumOver_congr' (prodT_perm φ hp), hT'.sum_barren hM, prodT_append]
  rw [sumOver_congr' e2]
  have sC : ∀ v ∈ C, DependsOn (φ v) (v :: pa v) := fun v hv => hT'.scope v (by simp [hv])
  have sP : ∀ v ∈ P, DependsOn (φ v) (v :: pa v) := fun v hv => hT'.scope v (by simp [hv])
  refine sumOver_mul (DependsOn.prodT (sc := fun u => u :: pa u) sC) (DependsOn.prodT (sc := fun u => u :: pa u) sP)
    ?_ ?_ a
  · intro y hy hys
    obtain ⟨hyP, hyE⟩ := List.mem_filter.1 hy
    simp only [decide_eq_true_eq, List.mem_append, not_or] at hyE
    obtain ⟨u, hu, hyu⟩ := List.mem_flatMap.1 hys
    rcases List.mem_cons.1 hyu with rfl | hyu
    · exact h2.2.2 hu hyP
    · exact h2.2.2 (hC u hu y hyu hyE.2) hyP
  · intro y hy hys
    obtain ⟨hyC, hyE⟩ := List.mem_filter.1 hy
    simp only [decide_eq_true_eq, List.mem_append, not_or] at hyE
    obtain ⟨u, hu, hyu⟩ := List.mem_flatMap.1 hys
    rcases List.mem_cons.1 hyu with rfl | hyu
    · exact h2.2.2 hyC hu
    · exact h2.2.2 hyC (hP u hu y hyu hyE.2)

/-- The two sides of separated nodes. -/
theorem dsep_spec {g : DiGraph V} (hg : g.WF) (ha : g.Acyclic) {T Y Z : List V}
    (hT : ∀ t ∈ T, t ∈ g.nodes) (hY : ∀ v ∈ Y, v ∈ g.nodes) (hs : g.dSeparated T Y Z = true) :
    ∃ M C P, PruneSpec g T Z M C P ∧ ∀ v ∈ Y, v ∈ P := by
  classical
  set A := T ++ Y ++ Z with hA
  set barren := g.barrenNodes A with hb
  set h := (g.barrenRemoval A).removeOutgoing Z with hh
  have mb : ∀ u, u ∈ barren ↔ u ∈ g.nodes ∧ ¬ g.Needed A u := fun u => DiGraph.mem_barrenNodes hg ha
  have hhe : h = (g.removeNodes barren).removeOutgoing Z := by rw [hh, DiGraph.barrenRemoval_eq hg]
  have hwf : h.WF := hhe ▸ (hg.removeNodes _).removeOutgoing _
  have mhn : ∀ u, u ∈ h.nodes ↔ u ∈ g.nodes ∧ u ∉ barren := by
    intro u; rw [hhe]; simp [DiGraph.removeNodes, DiGraph.removeOutgoing]
  have mhe : ∀ u w, (u, w) ∈ h.edges ↔ (u, w) ∈ g.edges ∧ u ∉ Z ∧ u ∉ barren ∧ w ∉ barren := by
    intro u w; rw [hhe]; simp [DiGraph.removeNodes, DiGraph.removeOutgoing, and_assoc, and_left_comm, and_comm]
  have hAn : ∀ u ∈ A, u ∉ barren := fun u hu hc => ((mb u).1 hc).2 ⟨u, hu, .refl⟩
  have hTh : ∀ t ∈ T, t ∈ h.nodes := fun t ht => (mhn t).2 ⟨hT t ht, hAn t (by simp [hA, ht])⟩
  have hsep : ∀ t ∈ T, ∀ v ∈ Y, ¬ ReflTransGen h.UEdge t v := by
    intro t ht v hv hc
    have : v ∈ h.component t := (DiGraph.mem_component hwf (hTh t ht)).2 hc
    rw [DiGraph.dSeparated, Bool.not_eq_true', List.any_eq_false] at hs
    refine hs t ht ?_
    rw [List.any_eq_true]
    exact ⟨v, hv, decide_eq_true this⟩
  have needPa : ∀ u p, g.Edge p u → u ∉ barren → p ∉ barren := by
    intro u p hpu hub hpb
    have hun : u ∈ g.nodes := (hg.ends _ hpu).2
    have : g.Needed A u := by
      by_contra hc
      exact hub ((mb u).2 ⟨hun, hc⟩)
    obtain ⟨s, hs, hr⟩ := this
    exact ((mb p).1 hpb).2 ⟨s, hs, hr.head hpu⟩
  let inC : V → Prop := fun u => ∃ t ∈ T, ReflTransGen h.UEdge t u
  set M := g.nodes.filter (· ∈ barren) with hM
  set C := g.nodes.filter (fun u => u ∉ barren ∧ inC u) with hC
  set P := g.nodes.filter (fun u => u ∉ barren ∧ ¬ inC u) with hP
  have mC : ∀ u, u ∈ C ↔ u ∈ g.nodes ∧ u ∉ barren ∧ inC u := by intro u; simp [hC]
  have mP : ∀ u, u ∈ P ↔ u ∈ g.nodes ∧ u ∉ barren ∧ ¬ inC u := by intro u; simp [hP]
  have mM : ∀ u, u ∈ M ↔ u ∈ g.nodes ∧ u ∈ barren := by intro u; simp [hM]
  have link : ∀ u p, g.Edge p u → p ∉ Z → u ∉ barren → h.UEdge u p := by
    intro u p hpu hpZ hub
    exact .inr ((mhe p u).2 ⟨hpu, hpZ, needPa u p hpu hub, hub⟩)
  refine ⟨M, C, P, ⟨?_, ?_, ?_, ?_, ?_, ?_⟩, ?_⟩
  · rw [List.perm_ext_iff_of_nodup hg.nodes]
    · intro u
      simp only [List.mem_append, mM, mC, mP]
      by_cases h1 : u ∈ barren
      · simp [h1]
      · by_cases h2 : inC u
        · simp [h1, h2]
        · simp [h1, h2]
    · refine List.nodup_append'.2 ⟨hg.nodes.filter _, List.nodup_append'.2 ⟨hg.nodes.filter _, hg.nodes.filter _, ?_⟩, ?_⟩
      · intro u h1 h2
        exact ((mP u).1 h2).2.2 ((mC u).1 h1).2.2
      · intro u h1 h2
        rcases List.mem_append.1 h2 with h2 | h2
        · exact ((mC u).1 h2).2.1 ((mM u).1 h1).2
        · exact ((mP u).1 h2).2.1 ((mM u).1 h1).2
  · intro u hu p hpu hpM
    have hub : u ∉ barren := by
      rcases List.mem_append.1 hu with hu | hu
      · exact ((mC u).1 hu).2.1
      · exact ((mP u).1 hu).2.1
    exact needPa u p hpu hub ((mM p).1 hpM).2
  · intro u hu huZ
    exact hAn u (by simp [hA, huZ]) ((mM u).1 hu).2
  · intro u hu p hpu hpZ
    obtain ⟨h3, h5, t, ht, hr⟩ := (mC u).1 hu
    have hpn : p ∈ g.nodes := (hg.ends _ hpu).1
    exact (mC p).2 ⟨hpn, needPa u p hpu h5, t, ht, hr.tail (link u p hpu hpZ h5)⟩
  · intro u hu p hpu hpZ
    obtain ⟨h3, h5, h4⟩ := (mP u).1 hu
    have hpn : p ∈ g.nodes := (hg.ends _ hpu).1
    refine (mP p).2 ⟨hpn, needPa u p hpu h5, ?_⟩
    rintro ⟨t, ht, hr⟩
    exact h4 ⟨t, ht, hr.tail (link u p hpu hpZ h5).symm⟩
  · intro t ht
    exact (mC t).2 ⟨hT t ht, hAn t (by simp [hA, ht]), t, ht, .refl⟩
  · exact fun v hv => (mP v).2 ⟨hY v hv, hAn v (by simp [hA, hv]), fun ⟨t, ht, hr⟩ => hsep t ht v hv hr⟩

/-- Independence in product form. -/
theorem dsep_margs [CommSemiring K] {B : BN V S K} (hB : B.Valid) (hn : B.Normalised) {g : DiGraph V} (hg : g.WF)
    (hgn : g.nodes = B.nodes) (hge : ∀ v ∈ B.nodes, ∀ p, p ∈ B.parents v ↔ (p, v) ∈ g.edges)
    {T Y Z : List V} (hT : ∀ t ∈ T, t ∈ B.nodes) (hY : ∀ v ∈ Y, v ∈ B.nodes) (hZ : ∀ z ∈ Z, z ∈ B.nodes)
    (hs : g.dSeparated T Y Z = true) {a : V → S} (ha : B.InStates a) :
    B.marg (T ++ (Y ++ Z)) a * B.marg Z a = B.marg (T ++ Z) a * B.marg (Y ++ Z) a := by
  have hac : g.Acyclic := by
    intro u hu
    refine hB.acyclic u (Relation.TransGen.mono (fun x y hxy => ?_) _ _ hu)
    have hb : y ∈ B.nodes := hgn ▸ (hg.ends _ hxy).2
    exact ⟨hb, (hge y hb x).2 hxy⟩
  obtain ⟨M, C, P, hp, hvP⟩ := dsep_spec hg hac (fun t ht => hgn ▸ hT t ht) (fun v hv => hgn ▸ hY v hv) hs
  have hperm : B.nodes.Perm (M ++ (C ++ P)) := hgn ▸ hp.perm
  have edge : ∀ u, u ∈ M ++ (C ++ P) → ∀ p ∈ B.parents u, g.Edge p u := fun u hu p hpu =>
    (hge u (hperm.mem_iff.2 hu) p).1 hpu
  have key := fun (W U : List V) (hW : ∀ w ∈ W, w ∈ C) (hU : ∀ u ∈ U, u ∈ P) =>
    sep_split (hB.tables hn) hperm (E := Z) (W := W) (U := U)
      (fun u hu p hpu => hp.barren u hu p (edge u (List.mem_append_right _ hu) p hpu)) hp.obs
      (fun u hu p hpu hpE => hp.keep u hu p (edge u (by simp [hu]) p hpu) hpE)
      (fun u hu p hpu hpE => hp.drop u hu p (edge u (by simp [hu]) p hpu) hpE) hW hU a
  have k1 := key T Y hp.target hvP
  have k2 := key [] [] (by simp) (by simp)
  have k3 := key T [] hp.target (by simp)
  have k4 := key [] Y (by simp) hvP
  simp only [List.nil_append] at k2 k3 k4
  have m := fun vs => hB.marg_eq (vs := vs) (a := a) (fun u _ hu => ha u hu)
  rw [m, m, m, m, k1, k2, k3, k4]
  ring

/-- Independence of a single node. -/
theorem dsep_marg [CommSemiring K] {B : BN V S K} (hB : B.Valid) (hn : B.Normalised) {g : DiGraph V} (hg : g.WF)
    (hgn : g.nodes = B.nodes) (hge : ∀ v ∈ B.nodes, ∀ p, p ∈ B.parents v ↔ (p, v) ∈ g.edges)
    {T Z : List V} {v : V} (hT : ∀ t ∈ T, t ∈ B.nodes) (hv : v ∈ B.nodes) (hZ : ∀ z ∈ Z, z ∈ B.nodes)
    (hs : g.dSeparated T [v] Z = true) {a : V → S} (ha : B.InStates a) :
    B.marg (T ++ ([v] ++ Z)) a * B.marg Z a = B.marg (T ++ Z) a * B.marg ([v] ++ Z) a :=
  dsep_margs hB hn hg hgn hge hT (by simpa using hv) hZ hs ha

/-! ### Several nodes, each separated given the others -/

/-- The graph in which components are taken. -/
theorem dSeparated_iff {g : DiGraph V} (hg : g.WF) (ha : g.Acyclic) {T Y Z : List V} (hT : ∀ t ∈ T, t ∈ g.nodes) :
    g.dSeparated T Y Z = true ↔ ∀ t ∈ T, ∀ y ∈ Y,
      ¬ ReflTransGen (fun u w => (g.Edge u w ∧ u ∉ Z ∧ g.Needed (T ++ Y ++ Z) w) ∨
        (g.Edge w u ∧ w ∉ Z ∧ g.Needed (T ++ Y ++ Z) u)) t y := by
  classical
  set A := T ++ Y ++ Z with hA
  set barren := g.barrenNodes A with hb
  set h := (g.barrenRemoval A).removeOutgoing Z with hh
  have mb : ∀ u, u ∈ barren ↔ u ∈ g.nodes ∧ ¬ g.Needed A u := fun u => DiGraph.mem_barrenNodes hg ha
  have hhe : h = (g.removeNodes barren).removeOutgoing Z := by rw [hh, DiGraph.barrenRemoval_eq hg]
  have hwf : h.WF := hhe ▸ (hg.removeNodes _).removeOutgoing _
  have mhn : ∀ u, u ∈ h.nodes ↔ u ∈ g.nodes ∧ u ∉ barren := by
    intro u; rw [hhe]; simp [DiGraph.removeNodes, DiGraph.removeOutgoing]
  have mhe : ∀ u w, (u, w) ∈ h.edges ↔ (u, w) ∈ g.edges ∧ u ∉ Z ∧ u ∉ barren ∧ w ∉ barren := by
    intro u w; rw [hhe]; simp [DiGraph.removeNodes, DiGraph.removeOutgoing, and_assoc, and_left_comm, and_comm]
  have hAn : ∀ u ∈ A, u ∉ barren := fun u hu hc => ((mb u).1 hc).2 ⟨u, hu, .refl⟩
  have hTh : ∀ t ∈ T, t ∈ h.nodes := fun t ht => (mhn t).2 ⟨hT t ht, hAn t (by simp [hA, ht])⟩
  have nb : ∀ u, u ∈ g.nodes → (u ∉ barren ↔ g.Needed A u) := by
    intro u hu
    rw [mb]; simp [hu]
  have he : ∀ u w, (u, w) ∈ h.edges ↔ g.Edge u w ∧ u ∉ Z ∧ g.Needed A w := by
    intro u w
    rw [mhe]
    constructor
    · rintro ⟨h1, h2, _, h4⟩
      exact ⟨h1, h2, (nb w (hg.ends _ h1).2).1 h4⟩
    · rintro ⟨h1, h2, h4⟩
      obtain ⟨s, hs, hr⟩ := h4
      exact ⟨h1, h2, (nb u (hg.ends _ h1).1).2 ⟨s, hs, hr.head h1⟩, (nb w (hg.ends _ h1).2).2 ⟨s, hs, hr⟩⟩
  have hu : h.UEdge = fun u w => (g.Edge u w ∧ u ∉ Z ∧ g.Needed A w) ∨ (g.Edge w u ∧ w ∉ Z ∧ g.Needed A u) := by
    funext u w
    exact propext (or_congr (he u w) (he w u))
  rw [DiGraph.dSeparated, Bool.not_eq_true', List.any_eq_false]
  refine forall_congr' fun t => forall_congr' fun ht => ?_
  rw [← hu, List.any_eq_true, not_exists]
  refine forall_congr' fun y => ?_
  rw [not_and]
  refine forall_congr' fun hy => ?_
  rw [decide_eq_true_eq, DiGraph.mem_component hwf (hTh t ht)]

theorem dSeparated_congr {g : DiGraph V} (hg : g.WF) (ha : g.Acyclic) {T Y Z Z' : List V} (hT : ∀ t ∈ T, t ∈ g.nodes)
    (hZ : ∀ x, x ∈ Z ↔ x ∈ Z') : g.dSeparated T Y Z = g.dSeparated T Y Z' := by
  have hN : ∀ x, g.Needed (T ++ Y ++ Z) x ↔ g.Needed (T ++ Y ++ Z') x := by
    intro x
    refine exists_congr fun s => and_congr ?_ Iff.rfl
    simp [hZ]
  rw [Bool.eq_iff_iff, dSeparated_iff hg ha hT, dSeparated_iff hg ha hT]
  simp only [hZ, hN]

/-- When each of the nodes `Y` is separated from `t` given the others and `Z`, they are separated together given `Z`. -/
theorem dSeparated_together {g : DiGraph V} (hg : g.WF) (ha : g.Acyclic) {t : V} {Y Z : List V} (ht : t ∈ g.nodes)
    (htY : t ∉ Y) (hs : ∀ y ∈ Y, ∀ W, (∀ x, x ∈ W ↔ (x ∈ Y ∨ x ∈ Z) ∧ x ≠ y) → g.dSeparated [t] [y] W = true) :
    g.dSeparated [t] Y Z = true := by
  classical
  rw [dSeparated_iff hg ha (by simpa using ht)]
  intro t' ht' y hy hr
  obtain rfl : t' = t := by simpa using ht'
  have key : ∀ y, ReflTransGen (fun u w => (g.Edge u w ∧ u ∉ Z ∧ g.Needed ([t'] ++ Y ++ Z) w) ∨
        (g.Edge w u ∧ w ∉ Z ∧ g.Needed ([t'] ++ Y ++ Z) u)) t' y → 
      (∃ w ∈ Y, ReflTransGen (fun u w' => (g.Edge u w' ∧ u ∉ Z ∧ (u ∈ Y → u = w) ∧ g.Needed ([t'] ++ Y ++ Z) w') ∨
        (g.Edge w' u ∧ w' ∉ Z ∧ (w' ∈ Y → w' = w) ∧ g.Needed ([t'] ++ Y ++ Z) u)) t' w) ∨
      (y ∉ Y ∧ ReflTransGen (fun u w' => (g.Edge u w' ∧ u ∉ Z ∧ u ∉ Y ∧ g.Needed ([t'] ++ Y ++ Z) w') ∨
        (g.Edge w' u ∧ w' ∉ Z ∧ w' ∉ Y ∧ g.Needed ([t'] ++ Y ++ Z) u)) t' y) := by
    intro y hr
    induction hr with
    | refl => exact .inr ⟨htY, .refl⟩
    | @tail b c _ hbc ih =>
      rcases ih with ih | ⟨hb, ih⟩
      · exact .inl ih
      · by_cases hc : c ∈ Y
        · refine .inl ⟨c, hc, ReflTransGen.tail (b := b) (Relation.ReflTransGen.mono (fun u w' h => ?_) _ _ ih) ?_⟩
          · rcases h with ⟨h1, h2, h3, h4⟩ | ⟨h1, h2, h3, h4⟩
            · exact .inl ⟨h1, h2, fun h => absurd h h3, h4⟩
            · exact .inr ⟨h1, h2, fun h => absurd h h3, h4⟩
          · rcases hbc with ⟨h1, h2, h4⟩ | ⟨h1, h2, h4⟩
            · exact .inl ⟨h1, h2, fun h => absurd h hb, h4⟩
            · exact .inr ⟨h1, h2, fun _ => rfl, h4⟩
        · refine .inr ⟨hc, ih.tail ?_⟩
          rcases hbc with ⟨h1, h2, h4⟩ | ⟨h1, h2, h4⟩
          · exact .inl ⟨h1, h2, hb, h4⟩
          · exact .inr ⟨h1, h2, hc, h4⟩
  rcases key y hr with ⟨w, hw, h⟩ | ⟨h, _⟩
  · have hW : ∀ x, x ∈ (Y ++ Z).filter (· ≠ w) ↔ (x ∈ Y ∨ x ∈ Z) ∧ x ≠ w := by intro x; simp [or_and_right]
    have := hs w hw _ hW
    rw [dSeparated_iff hg ha (by simpa using ht)] at this
    refine this t' (by simp) w (by simp) (Relation.ReflTransGen.mono (fun u w' h => ?_) _ _ h)
    have need : ∀ x, g.Needed ([t'] ++ Y ++ Z) x → g.Needed ([t'] ++ [w] ++ (Y ++ Z).filter (· ≠ w)) x := by
      rintro x ⟨s, hs, hr⟩
      refine ⟨s, ?_, hr⟩
      by_cases hsw : s = w
      · simp [hsw]
      · simp only [List.mem_append] at hs ⊢
        rcases hs with (hs | hs) | hs
        · exact .inl (.inl hs)
        · exact .inr ((hW s).2 ⟨.inl hs, hsw⟩)
        · exact .inr ((hW s).2 ⟨.inr hs, hsw⟩)
    have out : ∀ x, x ∉ Z → (x ∈ Y → x = w) → x ∉ (Y ++ Z).filter (· ≠ w) := by
      intro x h1 h2 hc
      obtain ⟨h3 | h3, h4⟩ := (hW x).1 hc
      · exact h4 (h2 h3)
      · exact h1 h3
    rcases h with ⟨h1, h2, h3, h4⟩ | ⟨h1, h2, h3, h4⟩
    · exact .inl ⟨h1, out _ h2 h3, need _ h4⟩
    · exact .inr ⟨h1, out _ h2 h3, need _ h4⟩
  · exact h hy

end Verif
