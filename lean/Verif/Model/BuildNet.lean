import Verif.Model.SetAll
import Verif.Model.Represents
import Verif.Inference.VELemmas

/-!
# Building a network from its tables

Helper lemmas for C93: the factors made from the tables of a network, and the model made from the factors.
-/

set_option linter.unusedSectionVars false
set_option linter.unusedSimpArgs false

namespace Verif

section
variable {V S : Type} [DecidableEq V] [DecidableEq S]

theorem asg_record [Nonempty S] {d : Dom V S} (hk : (Dict.keys d).Nodup) (a : V → S) {v : V} (hv : v ∈ Dict.keys d) :
    asg (d.map fun p => (p.1, a p.1)) v = a v := by
  obtain ⟨st, hst⟩ := Dict.mem_keys.1 hv
  have : Dict.get? (d.map fun p => (p.1, a p.1)) v = some (a v) :=
    Dict.get?_of_mem (by rw [Dict.keys, List.map_map]; exact hk) (List.mem_map.2 ⟨_, hst, rfl⟩)
  rw [asg, over_of_get? this]

theorem filter_eq_singleton {l : List V} (hn : l.Nodup) {v : V} (hv : v ∈ l) (p : V → Bool) (hp : ∀ w ∈ l, p w = true ↔ w = v) :
    l.filter p = [v] := by
  have h1 : (l.filter p).Nodup := hn.filter _
  have h2 : ∀ w, w ∈ l.filter p ↔ w = v := fun w => by
    rw [List.mem_filter]
    exact ⟨fun h => (hp w h.1).1 h.2, fun h => ⟨h ▸ hv, (hp w (h ▸ hv)).2 h⟩⟩
  exact List.perm_singleton.1 ((List.perm_ext_iff_of_nodup h1 (by simp)).2 fun w => by rw [h2]; simp)

end

namespace DagModel
variable {F V S : Type} [DecidableEq V] [DecidableEq S] [FactorLike F V S]

/-- Construction from a list. -/
theorem ofList_fits {g : DiGraph V} (hg : g.WF) (ha : g.Acyclic) {D : V → List S} {check : Bool} (l : List (V × F))
    (hl : ∀ p ∈ l, FactorLike.leftVars p.2 = [p.1]) (hf : ∀ p ∈ l, Fits g D p.1 p.2) (hn : (Dict.keys l).Nodup) :
    ofList g (l.map Prod.snd) check = .ok (after g D check l) := by
  rw [ofList, init_ok hg ha, ← after_nil g D check, py_ok_bind]
  refine Eq.trans ?_ (setAll (fs := []) l hf hn)
  rw [setFactorsList, List.foldlM_map]
  have : ∀ (l : List (V × F)) (m : DagModel F V S), (∀ p ∈ l, FactorLike.leftVars p.2 = [p.1]) →
      l.foldlM (fun m p => (do let v ← leftOf p.2; m.setFactor v (some p.2) : Py (DagModel F V S))) m =
        l.foldlM (fun m p => m.setFactor p.1 (some p.2)) m := by
    intro l
    induction l with
    | nil => intro _ _; rfl
    | cons p l ih =>
      intro m h
      rw [List.foldlM_cons, List.foldlM_cons, SCM.leftOf_fits (h p List.mem_cons_self), py_ok_bind]
      cases m.setFactor p.1 (some p.2) with
      | error e => rfl
      | ok m1 => exact ih m1 fun q hq => h q (List.mem_cons_of_mem _ hq)
  exact this l _ hl

end DagModel

section
variable {V S K : Type} [DecidableEq V] [DecidableEq S] [Inhabited S] [Field K] [LinearOrder K] {I : StoreImpl V S (Fl K)}

/-- The domain of a table of the node `v`: the node and its parents, in any order, each with its states. -/
structure TableDom (B : BN V S K) (v : V) (d : Dom V S) : Prop where
  keys : (Dict.keys d).Nodup
  vars : ∀ w, w ∈ Dict.keys d ↔ w = v ∨ w ∈ B.parents v
  states : ∀ p ∈ d, p.2 = B.states p.1

/-- The entries of the table of `v` in row-major order. -/
noncomputable def tableValues (B : BN V S K) (v : V) (d : Dom V S) : List (Fl K) :=
  (assignmentSpace d).map fun o => .fin (B.table v (asg o))

theorem TableDom.domOk {B : BN V S K} (hB : B.Valid) {v : V} (hv : v ∈ B.nodes) {d : Dom V S} (h : TableDom B v d) : DomOk d := by
  have hn : ∀ p ∈ d, p.1 ∈ B.nodes := fun p hp => by
    rcases (h.vars p.1).1 (Dict.mem_keys_of_mem hp) with e | e
    · rw [e]; exact hv
    · exact hB.parents v hv _ e
  exact ⟨h.keys, fun p hp => by rw [h.states p hp]; exact hB.nodupStates _ (hn p hp),
    fun p hp => by rw [h.states p hp]; exact hB.nonempty _ (hn p hp)⟩

theorem table_factor (hI : I.Lawful) {B : BN V S K} (hB : B.Valid) {v : V} (hv : v ∈ B.nodes) {d : Dom V S} (h : TableDom B v d) :
    ∃ f, Factor.make I d (tableValues B v d) (some [v]) none = .ok f ∧ f.leftVars = [v] ∧ f.dom = d ∧ IsTable B v f := by
  have hd := h.domOk hB hv
  have hvd : v ∈ Dict.keys d := (h.vars v).2 (.inl rfl)
  have hvp : v ∉ B.parents v := fun hp => hB.acyclic v (.single ⟨hv, hp⟩)
  obtain ⟨f, h1, h2, h3, h4, h5⟩ := Factor.make_ok hI (left := some [v]) (right := none) (values := tableValues B v d) hd
    (by rw [tableValues, List.length_map, assignmentSpace, List.length_map, stateSpace, length_product, cards, List.map_map]; rfl) rfl
  have hleft : f.leftVars = [v] := by
    rw [Factor.leftVars, Factor.vars, h3, h4]
    refine filter_eq_singleton h.keys hvd _ fun w hw => ?_
    simp [hw]
  refine ⟨f, h1, hleft, h3, h2, fun w => by rw [hleft]; simp, fun w => ?_, fun w => ?_, fun p hp => ?_, fun obs ho => ?_⟩
  · rw [h4, List.mem_filter, h.vars]
    constructor
    · rintro ⟨e | e, hw⟩
      · subst e; simp at hw
      · exact e
    · intro hw
      refine ⟨.inr hw, ?_⟩
      have : w ≠ v := fun e => hvp (e ▸ hw)
      simpa using this
  · rw [Factor.vars, h3, h.vars]
  · rw [h3] at hp; exact h.states p hp
  · rw [Factor.getValue_full hI h2 ho]
    rw [h3] at ho
    rw [h5 _ ho.inDom, tableValues, List.getD_eq_getElem?_getD, List.getElem?_map, assignmentSpace_getElem? ho.inDom]
    simp only [Option.map_some, Option.getD_some]
    congr 2
    refine hB.scope v hv _ _ fun w hw => asg_record h.keys _ ((h.vars w).2 (List.mem_cons.1 hw))

/-- The model made of the factors represents the network. -/
theorem build_net (hI : I.Lawful) {B : BN V S K} (hB : B.Valid) {g : DiGraph V} (hg : g.WF) (hnodes : g.nodes = B.nodes)
    (hpar : ∀ v ∈ B.nodes, ∀ p, p ∈ B.parents v ↔ (p, v) ∈ g.edges) {d : V → Dom V S} (hd : ∀ v ∈ B.nodes, TableDom B v (d v))
    {order : List V} (ho : order.Perm B.nodes) (check : Bool) :
    ∃ fs m, order.mapM (fun v => Factor.make I (d v) (tableValues B v (d v)) (some [v]) none) = .ok fs ∧
      DagModel.ofList g fs check = .ok m ∧ m.graph = g ∧ Represents m B := by
  have hmem : ∀ v, v ∈ order ↔ v ∈ B.nodes := fun v => ho.mem_iff
  have hac : g.Acyclic := by
    intro v hv
    refine hB.acyclic v (Relation.TransGen.mono (fun a b hab => ?_) _ _ hv)
    have hb : b ∈ B.nodes := hnodes ▸ (hg.ends _ hab).2
    exact ⟨hb, (hpar b hb a).2 hab⟩
  haveI : Nonempty (Factor I) := by
    obtain ⟨f, _⟩ := Factor.make_ok hI (d := []) (values := [default]) (left := none) (right := none) ⟨by simp, by simp, by simp⟩ rfl rfl
    exact ⟨f⟩
  choose! fac hfac using fun v (hv : v ∈ B.nodes) => table_factor hI hB hv (hd v hv)
  have hfit : ∀ p ∈ order.map fun v => (v, fac v), DagModel.Fits g B.states p.1 p.2 := by
    intro p hp
    obtain ⟨v, hv, rfl⟩ := List.mem_map.1 hp
    have hv' := (hmem v).1 hv
    obtain ⟨h1, h2, h3, h4⟩ := hfac v hv'
    have hpred : ∀ w, w ∈ g.pred v ↔ w ∈ B.parents v := fun w => by rw [DiGraph.mem_pred, hpar v hv']
    exact ⟨hnodes ▸ hv', ⟨fun w hw => (h4.right w).2 ((hpred w).1 hw), fun w hw => (hpred w).2 ((h4.right w).1 hw)⟩,
      ⟨fun w hw => (h4.left w).2 (by simpa using hw), fun w hw => by simpa using (h4.left w).1 hw⟩, h4.dom,
      (h4.vars v).2 (.inl rfl)⟩
  have hnd : (Dict.keys (order.map fun v => (v, fac v))).Nodup := by
    rw [Dict.keys, List.map_map]
    simpa [Function.comp_def] using ho.nodup_iff.2 hB.nodes
  have hm := DagModel.ofList_fits hg hac (check := check) (order.map fun v => (v, fac v)) (by
    intro p hp
    obtain ⟨v, hv, rfl⟩ := List.mem_map.1 hp
    exact (hfac v ((hmem v).1 hv)).2.1) hfit hnd
  rw [List.map_map] at hm
  refine ⟨order.map fac, _, mapM_ok fun v hv => (hfac v ((hmem v).1 hv)).1, hm, rfl, hg, hnodes, hpar, ?_, fun v hv => ?_⟩
  · simp [DagModel.after, Dict.keys, Function.comp_def]
  · refine ⟨fac v, fac v, ?_, rfl, (hfac v hv).2.2.2⟩
    show Dict.get? (g.nodes.map fun w => (w, Dict.get? (order.map fun v => (v, fac v)) w)) v = _
    rw [Dict.get?_map, if_pos (hnodes ▸ hv)]
    congr 1
    exact Dict.get?_of_mem hnd (List.mem_map.2 ⟨v, (hmem v).2 hv, rfl⟩)

end
end Verif
