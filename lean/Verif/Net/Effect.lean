import Verif.Net.Tian

/-!
# Effects of interventions from the distribution of the endogenous variables

When no imposed variable has a child, itself not imposed, in its own component, the probabilities after the intervention are obtained from the
conditional distributions given the parents in the decomposition graph: in the component of an imposed variable they are multiplied and summed over it.
-/

set_option linter.unusedSectionVars false
set_option linter.unusedSimpArgs false

namespace Verif
open Relation

variable {V S K : Type} [DecidableEq V] [DecidableEq S] [Field K] [Inhabited S] [LinearOrder K] [IsStrictOrderedRing K]

/-- A topological order of the endogenous variables; the children of endogenous variables are endogenous. -/
structure EndoOk (g : DiGraph V) (endo o : List V) : Prop where
  wf : g.WF
  topo : TopoOrder (g.endoGraph endo) o
  root : ∀ e ∈ g.edges, e.1 ∈ endo → e.2 ∈ endo

theorem TianOk.toEndo {g : DiGraph V} {endo order o : List V} (h : TianOk g endo order o) : EndoOk g endo o where
  wf := h.wf
  root := h.root
  topo := ⟨(List.perm_ext_iff_of_nodup h.nodup (h.wf.nodes.filter _)).2 fun v => by rw [h.mem_iff, ← TianOk.mem_endo (g := g)]; rfl,
    fun pre v post e p hp => h.qtopo.sorted pre v post e p (h.q_of_endo hp)⟩

/-- What comes before `v` -/
def before (o : List V) (v : V) : List V := o.takeWhile (· ≠ v)

theorem before_eq {o pre post : List V} {v : V} (hn : o.Nodup) (e : o = pre ++ v :: post) : before o v = pre := by
  subst e
  have hv : v ∉ pre := fun hv => (List.nodup_append'.1 hn).2.2 hv List.mem_cons_self
  rw [before, List.takeWhile_append_of_pos fun w hw => by
    have : w ≠ v := fun e => hv (e ▸ hw)
    simpa using this]
  simp

namespace EndoOk
variable {g : DiGraph V} {endo o : List V} {B : BN V S K} {a : V → S}

theorem nodup (h : EndoOk g endo o) : o.Nodup := h.topo.perm.nodup_iff.2 (h.wf.nodes.filter _)

theorem mem_iff (h : EndoOk g endo o) {y : V} : y ∈ o ↔ y ∈ g.nodes ∧ y ∈ endo := by
  rw [h.topo.perm.mem_iff, TianOk.mem_endo]

/-- The probability of the values of a prefix: the later variables are barren. -/
theorem marg_exoSum (h : EndoOk g endo o) (hB : B.Valid) (hn : B.Normalised) (hgn : g.nodes = B.nodes)
    (hge : ∀ v ∈ B.nodes, ∀ p, p ∈ B.parents v ↔ (p, v) ∈ g.edges) (ha : B.InStates a) (pre post : List V) (e : o = pre ++ post) :
    B.marg pre a = B.exoSum (B.nodes.filter (· ∉ endo)) pre a := by
  set U := B.nodes.filter (· ∉ endo) with hU
  have hnd := h.nodup
  rw [e] at hnd
  have ho : ∀ v, v ∈ o ↔ v ∈ B.nodes ∧ v ∈ endo := fun v => by rw [h.mem_iff, hgn]
  have hmU : ∀ v, v ∈ U ↔ v ∈ B.nodes ∧ v ∉ endo := fun v => by simp [hU]
  have hnd' := List.nodup_append'.1 hnd
  have hUn : U.Nodup := hB.nodes.filter _
  have hperm : B.nodes.Perm (post ++ (U ++ pre)) := by
    refine (List.perm_ext_iff_of_nodup hB.nodes ?_).2 fun v => ?_
    · rw [List.nodup_append', List.nodup_append']
      refine ⟨hnd'.2.1, ⟨hUn, hnd'.1, fun v hv hv' => ((hmU v).1 hv).2 ((ho v).1 (by rw [e]; simp [hv'])).2⟩, fun v hv hv' => ?_⟩
      rcases List.mem_append.1 hv' with hv' | hv'
      · exact ((hmU v).1 hv').2 ((ho v).1 (by rw [e]; simp [hv])).2
      · exact hnd'.2.2 hv' hv
    · have h1 := ho v
      rw [e, List.mem_append] at h1
      rw [List.mem_append, List.mem_append, hmU]
      constructor
      · intro hv
        by_cases hve : v ∈ endo
        · rcases h1.2 ⟨hv, hve⟩ with h2 | h2
          · exact .inr (.inr h2)
          · exact .inl h2
        · exact .inr (.inl ⟨hv, hve⟩)
      · rintro (h2 | h2 | h2)
        · exact (h1.1 (.inr h2)).1
        · exact h2.1
        · exact (h1.1 (.inl h2)).1
  have hT : Tables B.states B.parents B.ctab (post ++ (U ++ pre)) := (hB.tables hn).sublist (hperm.nodup_iff.1 hB.nodes) fun v hv =>
    hperm.mem_iff.2 hv
  rw [hB.marg_eq fun v _ hv => ha v hv, BN.exoSum]
  have hp2 : (B.nodes.filter (· ∉ pre)).Perm (U ++ post) := by
    refine (List.perm_ext_iff_of_nodup (hB.nodes.filter _) ?_).2 fun v => ?_
    · exact List.nodup_append'.2 ⟨hUn, hnd'.2.1, fun v hv hv' => ((hmU v).1 hv).2 ((ho v).1 (by rw [e]; simp [hv'])).2⟩
    · have h1 := ho v
      rw [e, List.mem_append] at h1
      simp only [List.mem_filter, decide_eq_true_eq, List.mem_append, hmU]
      constructor
      · rintro ⟨hv, hvp⟩
        by_cases hve : v ∈ endo
        · exact .inr ((h1.2 ⟨hv, hve⟩).resolve_left hvp)
        · exact .inl ⟨hv, hve⟩
      · rintro (h2 | h2)
        · exact ⟨h2.1, fun hv => h2.2 (h1.1 (.inl hv)).2⟩
        · exact ⟨(h1.1 (.inr h2)).1, fun hv => hnd'.2.2 hv h2⟩
  rw [sumOver_perm hp2 (hB.nodes.filter _), sumOver_append]
  refine sumOver_congr' (fun b => ?_) a
  rw [sumOver_congr' (fun b => prodT_perm B.ctab hperm b)]
  refine hT.sum_barren (fun v hv p hp hpp => ?_) b
  have hvn : v ∈ B.nodes := hperm.mem_iff.2 (List.mem_append_right _ hv)
  have hed := (hge v hvn p).1 hp
  have hpe := (ho p).1 (by rw [e]; simp [hpp])
  rcases List.mem_append.1 hv with hv | hv
  · exact ((hmU v).1 hv).2 (h.root _ hed hpe.2)
  · have hve : v ∈ endo := ((ho v).1 (by rw [e]; simp [hv])).2
    exact hnd'.2.2 (h.topo.pred_mem e hv (TianOk.edge_endo.2 ⟨hed, hpe.2, hve⟩)) hpp

theorem exoSum_nil (hB : B.Valid) (hn : B.Normalised) {W : List V} (hW : W.Nodup) (hWB : ∀ v ∈ W, v ∈ B.nodes) (a : V → S) : B.exoSum W [] a = 1 := by
  have hT : Tables B.states B.parents B.ctab W := (hB.tables hn).sublist hW hWB
  rw [BN.exoSum, List.append_nil]; exact hT.sum_one a

/-- One component is taken out. -/
theorem exoSum_peel (hgn : g.nodes = B.nodes) (hge : ∀ v ∈ B.nodes, ∀ p, p ∈ B.parents v ↔ (p, v) ∈ g.edges) (hB : B.Valid) (hn : B.Normalised)
    {k : V → Bool} (hk : Closed g endo k) {L : List V} (hL : ∀ v ∈ L, v ∈ B.nodes ∧ v ∈ endo) :
    B.exoSum (B.nodes.filter (· ∉ endo)) L a =
      B.exoSum ((B.nodes.filter (· ∉ endo)).filter k) (L.filter k) a * B.exoSum (B.nodes.filter (· ∉ endo)) (L.filter (!k ·)) a := by
  have e1 : (L.filter (!k ·)).filter k = [] := List.filter_eq_nil_iff.2 fun v hv => by
    have := (List.mem_filter.1 hv).2
    simpa using this
  have e2 : (L.filter (!k ·)).filter (!k ·) = L.filter (!k ·) := List.filter_eq_self.2 fun v hv => (List.mem_filter.1 hv).2
  rw [TianOk.exoSum_split hgn hge hB hk hL, TianOk.exoSum_split hgn hge hB hk (L := L.filter (!k ·)) fun v hv => hL v (List.mem_filter.1 hv).1, e1, e2,
    exoSum_nil hB hn ((hB.nodes.filter _).filter _) fun v hv => (List.mem_filter.1 (List.mem_filter.1 hv).1).1, one_mul]

/-- The product over the components -/
theorem exoSum_parts (hgn : g.nodes = B.nodes) (hge : ∀ v ∈ B.nodes, ∀ p, p ∈ B.parents v ↔ (p, v) ∈ g.edges) (hB : B.Valid) (hn : B.Normalised)
    {ks : List (V → Bool)} (hk : ∀ k ∈ ks, Closed g endo k) (hdis : ks.Pairwise fun k l => ∀ v, k v = true → l v = false) {L : List V}
    (hL : ∀ v ∈ L, v ∈ B.nodes ∧ v ∈ endo) (hcov : ∀ v ∈ L, ∃ k ∈ ks, k v = true) :
    B.exoSum (B.nodes.filter (· ∉ endo)) L a =
      (ks.map fun k => B.exoSum ((B.nodes.filter (· ∉ endo)).filter k) (L.filter k) a).prod := by
  induction ks generalizing L with
  | nil =>
    have : L = [] := List.eq_nil_iff_forall_not_mem.2 fun v hv => by obtain ⟨k, hk, _⟩ := hcov v hv; cases hk
    rw [this, exoSum_nil hB hn (hB.nodes.filter _) fun v hv => (List.mem_filter.1 hv).1]
    rfl
  | cons k ks ih =>
    rw [List.pairwise_cons] at hdis
    rw [exoSum_peel hgn hge hB hn (hk k List.mem_cons_self) hL, List.map_cons, List.prod_cons,
      ih (fun l hl => hk l (List.mem_cons_of_mem _ hl)) hdis.2 (fun v hv => hL v (List.mem_filter.1 hv).1) (fun v hv => by
        obtain ⟨h1, h2⟩ := List.mem_filter.1 hv
        obtain ⟨l, hl, hlv⟩ := hcov v h1
        rcases List.mem_cons.1 hl with rfl | hl
        · simp [hlv] at h2
        · exact ⟨l, hl, hlv⟩)]
    congr 2
    refine List.map_congr_left fun l hl => ?_
    congr 1
    rw [List.filter_filter]
    refine List.filter_congr fun v _ => ?_
    cases hv : l v
    · simp
    · cases hkv : k v
      · simp
      · have := hdis.1 l hl v hkv
        rw [hv] at this; cases this

/-- Variables that are no parents of the others are summed out. -/
theorem exoSum_sum (h : EndoOk g endo o) (hge : ∀ v ∈ B.nodes, ∀ p, p ∈ B.parents v ↔ (p, v) ∈ g.edges) (hB : B.Valid) (hn : B.Normalised)
    {W L : List V} (hW : W.Nodup) (hWm : ∀ v ∈ W, v ∈ B.nodes ∧ v ∉ endo) (hLn : L.Nodup) (hL : ∀ v ∈ L, v ∈ B.nodes ∧ v ∈ endo) {D : List V}
    (hD : ∀ v ∈ L, v ∉ D → ∀ p ∈ L, p ∈ D → (p, v) ∉ g.edges) :
    B.exoSum W (L.filter (· ∉ D)) a = sumOver B.states (L.filter (· ∈ D)) (B.exoSum W L) a := by
  have hWL : ∀ v ∈ W, v ∉ L := fun v hv hl => (hWm v hv).2 (hL v hl).2
  have hp : (W ++ L).Perm (L.filter (· ∈ D) ++ (W ++ L.filter (· ∉ D))) := by
    have h1 := (List.filter_append_perm (· ∈ D) L).symm
    have h2 : (L.filter fun v => !decide (v ∈ D)) = L.filter (· ∉ D) := List.filter_congr fun v _ => by simp
    rw [h2] at h1
    refine (List.Perm.append_left W h1).trans ?_
    rw [← List.append_assoc, ← List.append_assoc]
    exact List.Perm.append_right _ List.perm_append_comm
  have hnd : (L.filter (· ∈ D) ++ (W ++ L.filter (· ∉ D))).Nodup :=
    hp.nodup_iff.1 (List.nodup_append'.2 ⟨hW, hLn, fun v hv hv' => hWL v hv hv'⟩)
  have hT : Tables B.states B.parents B.ctab (L.filter (· ∈ D) ++ (W ++ L.filter (· ∉ D))) := (hB.tables hn).sublist hnd fun v hv => by
    rcases List.mem_append.1 (hp.mem_iff.2 hv) with hv | hv
    · exact (hWm v hv).1
    · exact (hL v hv).1
  have hDW : (L.filter (· ∈ D) ++ W).Nodup :=
    List.nodup_append'.2 ⟨hLn.filter _, hW, fun v hv hv' => hWL v hv' (List.mem_filter.1 hv).1⟩
  show _ = sumOver B.states _ (fun b => sumOver B.states W (prodT B.ctab (W ++ L)) b) a
  rw [← sumOver_append, sumOver_perm List.perm_append_comm hDW, sumOver_append, BN.exoSum]
  refine sumOver_congr' (fun b => ?_) a
  rw [sumOver_congr' (fun b => prodT_perm B.ctab hp b)]
  refine (hT.sum_barren (fun v hv p hpv hpp => ?_) b).symm
  obtain ⟨p1, p2⟩ := List.mem_filter.1 hpp
  have p2 : p ∈ D := by simpa using p2
  rcases List.mem_append.1 hv with hv | hv
  · exact (hWm v hv).2 (h.root (p, v) ((hge v (hWm v hv).1 p).1 hpv) (hL p p1).2)
  · obtain ⟨v1, v2⟩ := List.mem_filter.1 hv
    exact hD v v1 (by simpa using v2) p p1 p2 ((hge v (hL v v1).1 p).1 hpv)

/-- The probability of the values of all endogenous variables that are not imposed -/
theorem doMarg_exoSum (h : EndoOk g endo o) (hB : B.Valid) (hgn : g.nodes = B.nodes) (ha : B.InStates a) {C : List V} {d : Obs V S}
    (hd : ∀ v ∈ Dict.keys d, v ∈ o) (hda : BN.Agrees d a) (hC : ∀ v, v ∈ C ↔ v ∈ o ∧ v ∉ Dict.keys d) :
    B.doMarg d C a = B.exoSum (B.nodes.filter (· ∉ endo)) (o.filter (· ∉ Dict.keys d)) a := by
  have ho : ∀ v, v ∈ o ↔ v ∈ B.nodes ∧ v ∈ endo := fun v => by rw [h.mem_iff, hgn]
  set U := B.nodes.filter (· ∉ endo) with hU
  have hmU : ∀ v, v ∈ U ↔ v ∈ B.nodes ∧ v ∉ endo := fun v => by simp [hU]
  have hUn : U.Nodup := hB.nodes.filter _
  rw [BN.exoSum, BN.doMarg]
  set xs := B.nodes.filter (· ∉ C) with hxs
  have hxn : xs.Nodup := hB.nodes.filter _
  have hmx : ∀ v, v ∈ xs ↔ v ∈ B.nodes ∧ v ∉ C := fun v => by simp [hxs]
  have hkn : ∀ v ∈ Dict.keys d, v ∈ xs := fun v hv => (hmx v).2 ⟨((ho v).1 (hd v hv)).1, fun hc => ((hC v).1 hc).2 hv⟩
  have hag : ∀ b : V → S, BN.Agrees d b ↔ ∀ v ∈ xs, v ∈ Dict.keys d → b v = a v := by
    intro b
    constructor
    · intro hb v _ hv
      obtain ⟨s, hs⟩ := Option.ne_none_iff_exists'.1 fun hN => Dict.get?_eq_none.1 hN hv
      rw [hb v s hs, hda v s hs]
    · intro hb v s hs
      have hv : v ∈ Dict.keys d := Dict.mem_keys_of_mem (Dict.mem_of_get? hs)
      rw [hb v (hkn v hv) hv, hda v s hs]
  have h3 : ∀ b, B.doJoint d b = if ∀ v ∈ xs, v ∈ Dict.keys d → b v = a v then B.trunc d b else 0 := by
    intro b
    rw [BN.doJoint]
    exact if_congr (hag b) rfl rfl
  rw [sumOver_congr' h3, sumOver_fixed hxn (fun x hx => hB.nodupStates x ((hmx x).1 hx).1) (fun v hv _ => ha v ((hmx v).1 hv).1)]
  have h4 : (fun v => if v ∈ xs ∧ v ∈ Dict.keys d then a v else a v) = a := by funext v; simp
  rw [h4]
  have hp : (xs.filter (· ∉ Dict.keys d)).Perm U := by
    refine (List.perm_ext_iff_of_nodup (hxn.filter _) hUn).2 fun v => ?_
    rw [hmU]
    simp only [List.mem_filter, decide_eq_true_eq, hmx, hC, ho]
    constructor
    · rintro ⟨⟨h1, h2⟩, h3⟩
      exact ⟨h1, fun he => h2 ⟨⟨h1, he⟩, h3⟩⟩
    · rintro ⟨h1, h2⟩
      exact ⟨⟨h1, fun hh => h2 hh.1.2⟩, fun hk => h2 ((ho v).1 (hd v hk)).2⟩
  rw [sumOver_perm hp (hxn.filter _)]
  refine sumOver_congr hUn fun b hb1 hb2 => ?_
  have hbin : B.InStates b := fun v hv => by
    by_cases hm : v ∈ U
    · exact hb2 v hm
    · rw [hb1 v hm]; exact ha v hv
  have hp2 : (U ++ o.filter (· ∉ Dict.keys d)).Perm (B.nodes.filter (· ∉ Dict.keys d)) := by
    refine (List.perm_ext_iff_of_nodup ?_ (hB.nodes.filter _)).2 fun v => ?_
    · exact List.nodup_append'.2 ⟨hUn, h.nodup.filter _, fun v hv hv' => ((hmU v).1 hv).2 ((ho v).1 (List.mem_filter.1 hv').1).2⟩
    · simp only [List.mem_append, hmU, List.mem_filter, decide_eq_true_eq, ho]
      constructor
      · rintro (⟨h1, h2⟩ | ⟨⟨h1, h2⟩, h3⟩)
        · exact ⟨h1, fun hk => h2 ((ho v).1 (hd v hk)).2⟩
        · exact ⟨h1, h3⟩
      · rintro ⟨h1, h2⟩
        by_cases he : v ∈ endo
        · exact .inr ⟨⟨h1, he⟩, h2⟩
        · exact .inl ⟨h1, he⟩
  rw [prodT_perm _ hp2, BN.trunc]
  symm
  refine prodT_congr (ψ := B.table) fun v hv => hB.ctab_eq (List.mem_filter.1 hv).1 fun w hw => ?_
  rcases List.mem_cons.1 hw with rfl | hw
  · exact hbin _ (List.mem_filter.1 hv).1
  · exact hbin w (hB.parents v (List.mem_filter.1 hv).1 w hw)

/-- The probabilities of the values of a component, each given all earlier variables, multiply to the sum over the exogenous variables of the component. -/
theorem prefix_component (h : EndoOk g endo o) (hB : B.Valid) (hn : B.Normalised) (hgn : g.nodes = B.nodes)
    (hge : ∀ v ∈ B.nodes, ∀ p, p ∈ B.parents v ↔ (p, v) ∈ g.edges) (ha : B.InStates a) {k : V → Bool} (hk : Closed g endo k)
    (pre post : List V) (e : o = pre ++ post) (hpos : ∀ pre' x post', o = pre' ++ x :: post' → B.marg pre' a ≠ 0) :
    ((pre.filter k).map fun v => B.marg (v :: before o v) a / B.marg (before o v) a).prod =
      B.exoSum ((B.nodes.filter (· ∉ endo)).filter k) (pre.filter k) a := by
  have ho : ∀ v, v ∈ o ↔ v ∈ B.nodes ∧ v ∈ endo := fun v => by rw [h.mem_iff, hgn]
  induction pre using List.reverseRecOn generalizing post with
  | nil => exact (exoSum_nil hB hn ((hB.nodes.filter _).filter _) (fun v hv => (List.mem_filter.1 (List.mem_filter.1 hv).1).1) a).symm
  | append_singleton pre x ih =>
    have e1 : o = pre ++ x :: post := by rw [e]; simp
    have ih := ih (x :: post) e1
    by_cases hx : k x = true
    · rw [List.filter_append, List.filter_cons_of_pos hx, List.filter_nil, List.map_append, List.prod_append, ih]
      simp only [List.map_cons, List.map_nil, List.prod_cons, List.prod_nil, mul_one]
      rw [before_eq h.nodup e1, B.marg_ext (vs := x :: pre) (ws := pre ++ [x]) fun v => by simp [or_comm]]
      have hp := hpos pre x post e1
      have hL1 : ∀ v ∈ pre, v ∈ B.nodes ∧ v ∈ endo := fun v hv => (ho v).1 (by rw [e]; simp [hv])
      have hL2 : ∀ v ∈ pre ++ [x], v ∈ B.nodes ∧ v ∈ endo := fun v hv => (ho v).1 (by rw [e]; exact List.mem_append_left _ hv)
      rw [h.marg_exoSum hB hn hgn hge ha pre (x :: post) e1, TianOk.exoSum_split hgn hge hB hk hL1] at hp
      rw [h.marg_exoSum hB hn hgn hge ha (pre ++ [x]) post e, h.marg_exoSum hB hn hgn hge ha pre (x :: post) e1,
        TianOk.exoSum_split hgn hge hB hk hL2, TianOk.exoSum_split hgn hge hB hk hL1]
      rw [List.filter_append, List.filter_append (p := (!k ·)), List.filter_cons_of_pos hx, List.filter_cons_of_neg (by simp [hx]), List.filter_nil,
        List.filter_nil, List.append_nil]
      rw [mul_div_mul_right _ _ (right_ne_zero_of_mul hp), mul_div_cancel₀ _ (left_ne_zero_of_mul hp)]
    · rw [List.filter_append, List.filter_cons_of_neg hx, List.filter_nil, List.append_nil]
      exact ih

/-- What an intervention does, from what the components do -/
theorem effect (h : EndoOk g endo o) (hB : B.Valid) (hn : B.Normalised) (hgn : g.nodes = B.nodes)
    (hge : ∀ v ∈ B.nodes, ∀ p, p ∈ B.parents v ↔ (p, v) ∈ g.edges) (ha : B.InStates a)
    {ks : List (V → Bool)} (hk : ∀ k ∈ ks, Closed g endo k) (hdis : ks.Pairwise fun k l => ∀ v, k v = true → l v = false)
    (hcov : ∀ v ∈ o, ∃ k ∈ ks, k v = true) {C : List V} {d : Obs V S} (hd : ∀ v ∈ Dict.keys d, v ∈ o) (hda : BN.Agrees d a)
    (hC : ∀ v, v ∈ C ↔ v ∈ o ∧ v ∉ Dict.keys d)
    (hch : ∀ k ∈ ks, ∀ p ∈ Dict.keys d, k p = true → ∀ v, (p, v) ∈ g.edges → k v = true → v ∈ Dict.keys d)
    {F : V → (V → S) → K} (hF : ∀ k ∈ ks, ∀ b, B.InStates b → (∀ v ∈ C, b v = a v) →
      ((o.filter k).map fun v => F v b).prod = B.exoSum ((B.nodes.filter (· ∉ endo)).filter k) (o.filter k) b) :
    B.doMarg d C a = (ks.map fun k => sumOver B.states ((o.filter k).filter (· ∈ Dict.keys d)) (fun b => ((o.filter k).map fun v => F v b).prod) a).prod := by
  have ho : ∀ v, v ∈ o ↔ v ∈ B.nodes ∧ v ∈ endo := fun v => by rw [h.mem_iff, hgn]
  rw [h.doMarg_exoSum hB hgn ha hd hda hC, exoSum_parts hgn hge hB hn hk hdis (fun v hv => (ho v).1 (List.mem_filter.1 hv).1)
    fun v hv => hcov v (List.mem_filter.1 hv).1]
  refine congrArg List.prod (List.map_congr_left fun k hkk => ?_)
  have e1 : (o.filter (· ∉ Dict.keys d)).filter k = (o.filter k).filter (· ∉ Dict.keys d) := by
    rw [List.filter_filter, List.filter_filter]
    exact List.filter_congr fun v _ => Bool.and_comm _ _
  rw [e1, h.exoSum_sum hge hB hn ((hB.nodes.filter _).filter _) (fun v hv => by
      have := (List.mem_filter.1 (List.mem_filter.1 hv).1)
      exact ⟨this.1, by simpa using this.2⟩) (h.nodup.filter _) (fun v hv => (ho v).1 (List.mem_filter.1 hv).1)
    (fun v hv hvd p hp hpd he => hvd (hch k hkk p hpd (List.mem_filter.1 hp).2 v he (List.mem_filter.1 hv).2))]
  refine sumOver_congr ((h.nodup.filter _).filter _) fun b hb1 hb2 => ?_
  have hbin : B.InStates b := fun v hv => by
    by_cases hm : v ∈ (o.filter k).filter (· ∈ Dict.keys d)
    · exact hb2 v hm
    · rw [hb1 v hm]; exact ha v hv
  exact (hF k hkk b hbin fun v hv => hb1 v fun hm => ((hC v).1 hv).2 (by simpa using (List.mem_filter.1 hm).2)).symm

end EndoOk

end Verif
