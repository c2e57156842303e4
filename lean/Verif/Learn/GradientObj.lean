import Verif.Learn.GradientLemmas
import Verif.Spec.Component

/-!
# The objective of `GradientLikelihood` as a sum over records: helper lemmas
-/

set_option linter.unusedSectionVars false
set_option linter.unusedSimpArgs false

namespace Verif

variable {V S K : Type} [DecidableEq V] [DecidableEq S] [Inhabited S] [Field K] [LinearOrder K] {vt : VType}

local notation "II" => (storeOf vt : StoreImpl V S (Fl K))
local notation "LL" => (labelStoreOf vt : LabelStore V S)

namespace Gradient

theorem endoChildren_ok {m : SCM II LL} {B : BN V S K} (hm : m.Rep B) (hB : B.Valid) {U : V} (hU : U ∈ B.nodes) :
    ∃ C, m.endoChildren U = .ok C ∧ C.Perm (B.kids m.endogenous U) := by
  have hU' : U ∈ m.base.graph.nodes := by rw [hm.nodes]; exact hU
  refine ⟨(m.base.graph.succ U).reverse.dedup.reverse.filter (· ∈ m.endogenous), ?_, ?_⟩
  · simp [SCM.endoChildren, DagModel.getChildren, DiGraph.successors, hU']
  · refine (List.perm_ext_iff_of_nodup ((List.nodup_reverse.2 (List.nodup_dedup _)).filter _) (hB.nodes.filter _)).2 fun w => ?_
    simp only [List.mem_filter, List.mem_reverse, List.mem_dedup, DiGraph.mem_succ, decide_eq_true_eq, BN.kids]
    constructor
    · rintro ⟨h1, h2⟩
      have hw : w ∈ B.nodes := by rw [← hm.nodes]; exact (hm.wf.ends _ h1).2
      exact ⟨hw, h2, (hm.parents w hw U).2 h1⟩
    · rintro ⟨h1, h2, h3⟩
      exact ⟨(hm.parents w h1 U).1 h3, h2⟩

theorem endoParents_ok {m : SCM II LL} {B : BN V S K} (hm : m.Rep B) {v : V} (hv : v ∈ B.nodes) :
    ∃ P, m.endoParents v = .ok P ∧ ∀ w, w ∈ P ↔ w ∈ B.parents v ∧ w ∈ m.endogenous := by
  have hv' : v ∈ m.base.graph.nodes := by rw [hm.nodes]; exact hv
  refine ⟨(m.base.graph.pred v).reverse.dedup.reverse.filter (· ∈ m.endogenous), ?_, fun w => ?_⟩
  · simp [SCM.endoParents, DagModel.getParents, DiGraph.predecessors, hv']
  · simp only [List.mem_filter, List.mem_reverse, List.mem_dedup, DiGraph.mem_pred, decide_eq_true_eq, hm.parents v hv w]

theorem bmY_ok {m : SCM II LL} {B : BN V S K} (hm : m.Rep B) {C : List V} (hC : ∀ v ∈ C, v ∈ B.nodes) :
    ∃ Y, bmY m C = .ok Y ∧ ∀ w, w ∈ Y ↔ w ∉ C ∧ w ∈ m.endogenous ∧ ∃ v ∈ C, w ∈ B.parents v := by
  have : ∀ v, ∃ P, v ∈ C → m.endoParents v = .ok P ∧ ∀ w, w ∈ P ↔ w ∈ B.parents v ∧ w ∈ m.endogenous := by
    intro v
    by_cases hv : v ∈ C
    · obtain ⟨P, h⟩ := endoParents_ok hm (hC v hv)
      exact ⟨P, fun _ => h⟩
    · exact ⟨[], fun h => absurd h hv⟩
  choose P hP using this
  refine ⟨(C.map P).flatten.filter (· ∉ C), ?_, fun w => ?_⟩
  · rw [bmY, mapM_ok fun v hv => (hP v hv).1]; rfl
  · simp only [List.mem_filter, List.mem_flatten, List.mem_map, decide_eq_true_eq]
    constructor
    · rintro ⟨⟨l, ⟨v, hv, rfl⟩, hw⟩, h2⟩
      have := ((hP v hv).2 w).1 hw
      exact ⟨h2, this.2, v, hv, this.1⟩
    · rintro ⟨h1, h2, v, hv, h3⟩
      exact ⟨⟨_, ⟨v, hv, rfl⟩, ((hP v hv).2 w).2 ⟨h3, h2⟩⟩, h1⟩

/-- A record agrees with an enumerated observation exactly when the observation lists its values. -/
theorem all_eqAt {d : Dom V S} (hd : DomOk d) {o : Obs V S} (ho : o ∈ assignmentSpace d) (r : Rec V S) :
    (o.all fun p => Rec.eqAt r p.1 p.2) = true ↔ (∀ p ∈ d, ∃ s ∈ p.2, Rec.val r p.1 = some s) ∧ o = d.map fun p => (p.1, r.asg p.1) := by
  obtain ⟨h1, h2⟩ := mem_assignmentSpace hd.keys ho (fun _ => default)
  set b := over o fun _ => default with hb
  have key : (o.all fun p => Rec.eqAt r p.1 p.2) = true ↔ ∀ p ∈ d, Rec.val r p.1 = some (b p.1) := by
    rw [h2, List.all_map, List.all_eq_true]
    simp [Rec.eqAt]
  rw [key]
  constructor
  · intro h
    refine ⟨fun p hp => ⟨b p.1, h1 p hp, h p hp⟩, ?_⟩
    rw [h2]
    refine List.map_congr_left fun p hp => ?_
    simp [Rec.asg, h p hp]
  · rintro ⟨h3, h4⟩ p hp
    obtain ⟨s, _, hs⟩ := h3 p hp
    have : ∀ q ∈ d, b q.1 = r.asg q.1 := by
      rw [h2] at h4
      intro q hq
      have := List.map_inj_left.1 h4 q hq
      exact (Prod.ext_iff.1 this).2
    rw [this p hp, Rec.asg, hs]; rfl

theorem asg_mem_space {d : Dom V S} {r : Rec V S} (h : ∀ p ∈ d, ∃ s ∈ p.2, Rec.val r p.1 = some s) :
    (d.map fun p => (p.1, r.asg p.1)) ∈ assignmentSpace d := by
  refine List.mem_of_getElem? (assignmentSpace_getElem? fun p hp => ?_)
  obtain ⟨s, hs, e⟩ := h p hp
  rw [Rec.asg, e]; exact hs

theorem countCell_ok {fr : Frame V S} {o1 o2 : Obs V S} (h1 : ∀ v ∈ Dict.keys o1, v ∈ fr.cols) (h2 : ∀ v ∈ Dict.keys o2, v ∈ fr.cols)
    (hne : o1 ≠ []) : countCell fr o1 o2 =
      .ok (fr.rows.countP fun r => (o1.all fun p => Rec.eqAt r p.1 p.2) && o2.all fun p => Rec.eqAt r p.1 p.2) := by
  rw [countCell, Frame.select, if_pos h1, py_ok_bind, Frame.select, if_pos h2, py_ok_bind]
  by_cases h : fr.rows = []
  · rw [if_pos (Or.inr h), h]; rfl
  · rw [if_neg (by rintro (h' | h'); exacts [hne h', h h'])]; rfl

/-- The hypotheses on a model and an exogenous variable `U` under which the objective means something: the equations of the
children of `U` are multinomial factors, and these children have no other exogenous parent. -/
structure Single (m : SCM II LL) (B : BN V S K) (U : V) : Prop where
  node : U ∈ B.nodes
  exo : U ∉ m.endogenous
  multi : ∀ v ∈ B.kids m.endogenous U, ∀ f, Dict.get? m.base.factors v = some (some f) → f.isDet = false
  one : ∀ v ∈ B.kids m.endogenous U, ∀ p ∈ B.parents v, p ∈ m.endogenous ∨ p = U

theorem mem_exogenous {m : SCM II LL} {B : BN V S K} (hm : m.Rep B) (v : V) : v ∈ m.exogenous ↔ v ∈ B.nodes ∧ v ∉ m.endogenous := by
  simp [SCM.exogenous, hm.nodes]

theorem mem_kids {B : BN V S K} {E : List V} {U v : V} : v ∈ B.kids E U ↔ v ∈ B.nodes ∧ v ∈ E ∧ U ∈ B.parents v := by
  simp [BN.kids]

/-- The tables of the children depend only on `U` and the scope. -/
theorem table_congr {m : SCM II LL} {B : BN V S K} (hB : B.Valid) {U : V} (hU : Single m B U) {v : V} (hv : v ∈ B.kids m.endogenous U)
    {a b : V → S} (h : ∀ w ∈ B.compScope m.endogenous U, a w = b w) (u : S) : B.table v (upd a U u) = B.table v (upd b U u) := by
  obtain ⟨hn, hE, hp⟩ := mem_kids.1 hv
  refine hB.scope v hn _ _ fun w hw => ?_
  by_cases hwU : w = U
  · subst hwU; simp
  · rw [upd_ne _ _ hwU, upd_ne _ _ hwU]
    refine h w ?_
    rcases List.mem_cons.1 hw with rfl | hw
    · simp [BN.compScope, hn, hv]
    · have hwn := hB.parents v hn w hw
      have hwe := (hU.one v hv w hw).resolve_right hwU
      simp only [BN.compScope, List.mem_filter, decide_eq_true_eq]
      exact ⟨hwn, Or.inr ⟨hwe, v, hv, hw⟩⟩

theorem compLik_congr {m : SCM II LL} {B : BN V S K} (hB : B.Valid) {U : V} (hU : Single m B U) {a b : V → S}
    (h : ∀ w ∈ B.compScope m.endogenous U, a w = b w) (θ : S → K) :
    B.compLik m.endogenous U θ a = B.compLik m.endogenous U θ b := by
  unfold BN.compLik
  congr 1
  refine List.map_congr_left fun u _ => ?_
  congr 2
  exact List.map_congr_left fun v hv => table_congr hB hU hv h u

theorem prod_zero_one {l : List K} (h : ∀ x ∈ l, x = 0 ∨ x = 1) : l.prod = 0 ∨ l.prod = 1 := by
  induction l with
  | nil => right; rfl
  | cons x l ih =>
    rw [List.prod_cons]
    rcases h x List.mem_cons_self with rfl | rfl
    · left; simp
    · simpa using ih fun y hy => h y (List.mem_cons_of_mem _ hy)

theorem exists_inStates {B : BN V S K} (hB : B.Valid) : ∃ a : V → S, B.InStates a := by
  have : ∀ v, ∃ s, v ∈ B.nodes → s ∈ B.states v := by
    intro v
    by_cases hv : v ∈ B.nodes
    · obtain ⟨s, hs⟩ := List.exists_mem_of_ne_nil _ (hB.nonempty v hv)
      exact ⟨s, fun _ => hs⟩
    · exact ⟨default, fun h => absurd h hv⟩
  choose a ha using this
  exact ⟨a, fun v hv => ha v hv⟩

/-- The pairs of observations over which the loops run -/
def pairs (dv dy : Dom V S) : List (Obs V S × Obs V S) := (assignmentSpace dv).product (assignmentSpace dy)

/-- What the cells are. -/
theorem cellsOf_ok {m : SCM II LL} {B : BN V S K} (hm : m.Rep B) (hB : B.Valid) (hd : m.Doms B) {U : V} (hU : Single m B U)
    (hk : B.kids m.endogenous U ≠ []) {fr : Frame V S} (hc : ∀ v ∈ B.compScope m.endogenous U, v ∈ fr.cols) {a0 : V → S}
    (ha0 : B.InStates a0) :
    ∃ dv dy : Dom V S, DomOk dv ∧ DomOk dy ∧ (∀ p ∈ dv ++ dy, p.2 = B.states p.1) ∧
      (∀ v, v ∈ Dict.keys dv ∨ v ∈ Dict.keys dy ↔ v ∈ B.compScope m.endogenous U) ∧
      cellsOf m U fr = .ok ((pairs dv dy).map fun c =>
        (fr.rows.countP fun r => (c.1.all fun p => Rec.eqAt r p.1 p.2) && c.2.all fun p => Rec.eqAt r p.1 p.2,
         (B.states U).map fun u => decide (((B.kids m.endogenous U).map fun v => B.table v (upd (over c.1 (over c.2 a0)) U u)).prod ≠ 0))) := by
  obtain ⟨C, hC, hperm⟩ := endoChildren_ok hm hB hU.node
  have hCm : ∀ v, v ∈ C ↔ v ∈ B.kids m.endogenous U := fun v => hperm.mem_iff
  obtain ⟨Y, hY, hYm⟩ := bmY_ok hm (C := C) fun v hv => (mem_kids.1 ((hCm v).1 hv)).1
  have hsc : ∀ v, v ∈ Dict.keys (partDom B C) ∨ v ∈ Dict.keys (partDom B Y) ↔ v ∈ B.compScope m.endogenous U := by
    intro v
    rw [keys_partDom, keys_partDom]
    simp only [List.mem_filter, decide_eq_true_eq, BN.compScope, hCm, hYm]
    constructor
    · rintro (⟨h1, h2⟩ | ⟨h1, h2, h3, h4⟩)
      · exact ⟨h1, Or.inl h2⟩
      · exact ⟨h1, Or.inr ⟨h3, h4⟩⟩
    · rintro ⟨h1, h2⟩
      by_cases hvk : v ∈ B.kids m.endogenous U
      · exact Or.inl ⟨h1, hvk⟩
      · rcases h2 with h2 | ⟨h2, h3⟩
        · exact absurd h2 hvk
        · exact Or.inr ⟨h1, hvk, h2, h3⟩
  have hst : ∀ p ∈ partDom B C ++ partDom B Y, p.2 = B.states p.1 := by
    intro p hp
    rcases List.mem_append.1 hp with hp | hp <;>
    · obtain ⟨v, _, rfl⟩ := List.mem_map.1 hp
      rfl
  have hdv := partDom_ok hB C
  have hdy := partDom_ok hB Y
  refine ⟨_, _, hdv, hdy, hst, hsc, ?_⟩
  rw [cellsOf, hC, py_ok_bind, hY, py_ok_bind, cells, domainsOf_ok hd, py_ok_bind, domainsOf_ok hd, py_ok_bind]
  show (pairs (partDom B C) (partDom B Y)).mapM _ = _
  refine mapM_ok fun c hcm => ?_
  obtain ⟨hc1, hc2⟩ : c.1 ∈ assignmentSpace (partDom B C) ∧ c.2 ∈ assignmentSpace (partDom B Y) := List.mem_product.1 hcm
  obtain ⟨hk1, ho1⟩ := mem_assignmentSpace' hdv.keys hc1
  obtain ⟨hk2, ho2⟩ := mem_assignmentSpace' hdy.keys hc2
  have hcount : countCell fr c.1 c.2 = .ok (fr.rows.countP fun r => (c.1.all fun p => Rec.eqAt r p.1 p.2) && c.2.all fun p => Rec.eqAt r p.1 p.2) := by
    refine countCell_ok (fun v hv => ?_) (fun v hv => ?_) ?_
    · rw [hk1] at hv; exact hc v ((hsc v).1 (Or.inl hv))
    · rw [hk2] at hv; exact hc v ((hsc v).1 (Or.inr hv))
    · intro h
      obtain ⟨v, hv⟩ := List.exists_mem_of_ne_nil _ hk
      have hv' : v ∈ Dict.keys (partDom B C) := by
        rw [keys_partDom]; exact List.mem_filter.2 ⟨(mem_kids.1 hv).1, by simpa using (hCm v).2 hv⟩
      rw [← hk1, h] at hv'
      cases hv'
  rw [hcount, py_ok_bind]
  have hdU : Dict.get m.base.domains U = .ok (some (B.states U)) := by
    rw [hd, Dict.get, get?_map_pair _ _ hU.node]
  have hPs : computeP m U C Y c.1 c.2 = .ok ((B.states U).map fun u =>
      decide (((B.kids m.endogenous U).map fun v => B.table v (upd (over c.1 (over c.2 a0)) U u)).prod ≠ 0)) := by
    rw [computeP, hdU, py_ok_bind]
    refine mapM_ok fun u hu => ?_
    have hpr : ((B.kids m.endogenous U).map fun v => B.table v (upd (over c.1 (over c.2 a0)) U u)).prod =
        (C.map fun v => B.table v (upd (over c.1 (over c.2 a0)) U u)).prod := (hperm.map _).prod_eq.symm
    rw [hpr]
    refine prodOne_ok fun v hv => ?_
    have hvk := (hCm v).1 hv
    obtain ⟨hvn, hvE, hvU⟩ := mem_kids.1 hvk
    obtain ⟨f, hf, htab⟩ := hm.table v hvn
    have hnd := hU.multi v hvk f hf
    cases f with
    | det f => cases hnd
    | multi f =>
      have htab : IsTable B v f := htab
      refine ⟨_, hf, ?_⟩
      have hg1 : ∀ w, w ∈ B.nodes → w ∈ C → Dict.get? c.1 w = some (over c.1 (over c.2 a0) w) ∧ over c.1 (over c.2 a0) w ∈ B.states w := by
        intro w hwn hw
        have hwk : w ∈ Dict.keys (partDom B C) := by rw [keys_partDom]; exact List.mem_filter.2 ⟨hwn, by simpa using hw⟩
        rw [← hk1] at hwk
        rcases hg : Dict.get? c.1 w with _ | s
        · exact absurd hwk (Dict.get?_eq_none.1 hg)
        · refine ⟨by rw [over_of_get? hg], ?_⟩
          rw [over_of_get? hg]
          exact ho1 (w, B.states w) (List.mem_map.2 ⟨w, List.mem_filter.2 ⟨hwn, by simpa using hw⟩, rfl⟩) s hg
      have hg2 : ∀ w, w ∈ B.nodes → w ∉ C → w ∈ Y → Dict.get? c.2 w = some (over c.1 (over c.2 a0) w) ∧ over c.1 (over c.2 a0) w ∈ B.states w := by
        intro w hwn hwC hw
        have hwk : w ∈ Dict.keys (partDom B Y) := by rw [keys_partDom]; exact List.mem_filter.2 ⟨hwn, by simpa using hw⟩
        have hn1 : Dict.get? c.1 w = none := by
          refine Dict.get?_eq_none.2 ?_
          rw [hk1, keys_partDom]
          exact fun h => hwC (by simpa using (List.mem_filter.1 h).2)
        have e0 : over c.1 (over c.2 a0) w = over c.2 a0 w := by simp [over, hn1]
        rw [← hk2] at hwk
        rcases hg : Dict.get? c.2 w with _ | s
        · exact absurd hwk (Dict.get?_eq_none.1 hg)
        · rw [e0, over_of_get? hg]
          exact ⟨rfl, ho2 (w, B.states w) (List.mem_map.2 ⟨w, List.mem_filter.2 ⟨hwn, by simpa using hw⟩, rfl⟩) s hg⟩
      have hcls : ∀ w ∈ f.vars, (w ∈ m.exogenous ∧ w = U) ∨
          (w ∉ m.exogenous ∧ w ≠ U ∧ w ∈ C) ∨ (w ∉ m.exogenous ∧ w ≠ U ∧ w ∉ C ∧ w ∈ Y) := by
        intro w hw
        have hwE : w ∈ m.endogenous ∨ w = U := by
          rcases (htab.vars w).1 hw with rfl | hw
          · exact Or.inl hvE
          · exact hU.one v hvk w hw
        by_cases hwU : w = U
        · exact Or.inl ⟨hwU ▸ (mem_exogenous hm U).2 ⟨hU.node, hU.exo⟩, hwU⟩
        · have hwE := hwE.resolve_right hwU
          have hnx : w ∉ m.exogenous := fun h => ((mem_exogenous hm w).1 h).2 hwE
          by_cases hwC : w ∈ C
          · exact Or.inr (Or.inl ⟨hnx, hwU, hwC⟩)
          · refine Or.inr (Or.inr ⟨hnx, hwU, hwC, (hYm w).2 ⟨hwC, hwE, v, hv, ?_⟩⟩)
            rcases (htab.vars w).1 hw with rfl | hw
            · exact absurd hv hwC
            · exact hw
      have hnode : ∀ w ∈ f.vars, w ∈ B.nodes := by
        intro w hw
        rcases (htab.vars w).1 hw with rfl | hw
        · exact hvn
        · exact hB.parents v hvn w hw
      refine ⟨_, key_ok (U := U) (a := over c.1 (over c.2 a0)) (d := f.dom) ?_, isZeroAt_multi hB hvn htab ?_⟩
      · intro w hw
        rcases hcls w hw with h | ⟨h1, h2, h3⟩ | ⟨h1, h2, h3, h4⟩
        · exact Or.inl h
        · exact Or.inr (Or.inl ⟨h1, h2, h3, (hg1 w (hnode w hw) h3).1⟩)
        · exact Or.inr (Or.inr ⟨h1, h2, h3, h4, (hg2 w (hnode w hw) h3 h4).1⟩)
      · intro p hp
        rw [htab.dom p hp]
        have hpw : p.1 ∈ f.vars := Dict.mem_keys_of_mem hp
        rcases hcls p.1 hpw with ⟨h1, h2⟩ | ⟨h1, h2, h3⟩ | ⟨h1, h2, h3, h4⟩
        · rw [h2]; simpa using hu
        · rw [upd_ne _ _ h2]; exact (hg1 _ (hnode _ hpw) h3).2
        · rw [upd_ne _ _ h2]; exact (hg2 _ (hnode _ hpw) h3 h4).2
  rw [hPs]; rfl

end Gradient

end Verif
