import Verif.IO.UaiRead
import Verif.Learn.EMLemmas

/-!
# The network read from a file that was written from a network
-/

set_option linter.unusedSectionVars false
set_option linter.unusedSimpArgs false

namespace Verif

variable {V S S' K : Type} [DecidableEq V] [DecidableEq S] [DecidableEq S'] [Field K] [LinearOrder K]

/-- The name that the variable `v` gets when the variables are written in the given order -/
def fileName (order : List V) (v : V) : Str := Uai.varName (order.idxOf v)

/-- The variable with this name -/
def fileVar (order : List V) (w : Str) : Option V := order.find? fun v => fileName order v = w

/-- `B` with new names for the variables and with the numbers of the states instead of the states: what a file with
this order of the variables is about. `lab` is the integer as a state, `nodes` lists the names. -/
noncomputable def BN.coded [Nonempty S] (B : BN V S K) (order : List V) (lab : Nat → S') (nodes : List Str) : BN Str S' K where
  nodes := nodes
  parents w := match fileVar order w with
    | some v => (B.parents v).map (fileName order)
    | none => []
  states w := match fileVar order w with
    | some v => (List.range (B.states v).length).map lab
    | none => []
  table w x := match fileVar order w with
    | some v => B.table v fun u =>
        (B.states u).getD (((List.range (B.states u).length).map lab).idxOf (x (fileName order u))) (Classical.arbitrary S)
    | none => 0

theorem fileName_inj {order : List V} {u v : V} (hu : u ∈ order) (h : fileName order u = fileName order v) : u = v :=
  (List.idxOf_inj hu).1 (Uai.varName_inj h)

theorem fileVar_name {order : List V} {v : V} (hv : v ∈ order) : fileVar order (fileName order v) = some v := by
  rw [fileVar]
  rcases h : order.find? (fun u => fileName order u = fileName order v) with _ | u
  · rw [List.find?_eq_none] at h
    exact absurd (by simp) (h v hv)
  · have h1 := List.find?_some h
    have h2 := List.mem_of_find?_eq_some h
    rw [fileName_inj h2 (by simpa using h1)]

section Coded
variable [Nonempty S] {B : BN V S K} {order : List V} {lab : Nat → S'} {nodes : List Str}

theorem BN.coded_parents {v : V} (hv : v ∈ order) :
    (B.coded order lab nodes).parents (fileName order v) = (B.parents v).map (fileName order) := by
  simp [BN.coded, fileVar_name hv]

theorem BN.coded_states {v : V} (hv : v ∈ order) :
    (B.coded order lab nodes).states (fileName order v) = (List.range (B.states v).length).map lab := by
  simp [BN.coded, fileVar_name hv]

/-- The assignment behind an assignment of numbers -/
noncomputable def decoded (B : BN V S K) (order : List V) (lab : Nat → S') (x : Str → S') : V → S := fun u =>
  (B.states u).getD (((List.range (B.states u).length).map lab).idxOf (x (fileName order u))) (Classical.arbitrary S)

theorem BN.coded_table {v : V} (hv : v ∈ order) (x : Str → S') :
    (B.coded order lab nodes).table (fileName order v) x = B.table v (decoded B order lab x) := by
  simp only [BN.coded, fileVar_name hv]
  rfl

theorem BN.Valid.coded (hB : B.Valid) (ho : order.Perm B.nodes) (hl : Function.Injective lab)
    (hn : nodes.Perm (order.map (fileName order))) : (B.coded order lab nodes).Valid := by
  have hmem : ∀ w ∈ nodes, ∃ v ∈ B.nodes, v ∈ order ∧ w = fileName order v := by
    intro w hw
    obtain ⟨v, hv, rfl⟩ := List.mem_map.1 (hn.mem_iff.1 hw)
    exact ⟨v, ho.mem_iff.1 hv, hv, rfl⟩
  have hin : ∀ v ∈ B.nodes, fileName order v ∈ nodes := fun v hv => hn.mem_iff.2 (List.mem_map.2 ⟨v, ho.mem_iff.2 hv, rfl⟩)
  refine ⟨?_, ?_, ?_, ?_, ?_, ?_⟩
  · refine hn.nodup_iff.2 (List.Nodup.map_on (fun u hu v _ h => fileName_inj hu h) (ho.nodup_iff.2 hB.nodes))
  · intro w hw p hp
    obtain ⟨v, hv, hvo, rfl⟩ := hmem w hw
    rw [BN.coded_parents hvo] at hp
    obtain ⟨q, hq, rfl⟩ := List.mem_map.1 hp
    exact hin q (hB.parents v hv q hq)
  · have key : ∀ x y, Relation.TransGen (fun u w => w ∈ nodes ∧ u ∈ (B.coded order lab nodes).parents w) x y →
        ∃ u ∈ B.nodes, ∃ v ∈ B.nodes, x = fileName order u ∧ y = fileName order v ∧
          Relation.TransGen (fun u w => w ∈ B.nodes ∧ u ∈ B.parents w) u v := by
      intro x y h
      have step : ∀ x y, (y ∈ nodes ∧ x ∈ (B.coded order lab nodes).parents y) →
          ∃ u ∈ B.nodes, ∃ v ∈ B.nodes, x = fileName order u ∧ y = fileName order v ∧ u ∈ B.parents v := by
        rintro x y ⟨hy, hx⟩
        obtain ⟨v, hv, hvo, rfl⟩ := hmem y hy
        rw [BN.coded_parents hvo] at hx
        obtain ⟨u, hu, rfl⟩ := List.mem_map.1 hx
        exact ⟨u, hB.parents v hv u hu, v, hv, rfl, rfl, hu⟩
      induction h with
      | single h1 =>
        obtain ⟨u, hu, v, hv, e1, e2, e3⟩ := step _ _ h1
        exact ⟨u, hu, v, hv, e1, e2, .single ⟨hv, e3⟩⟩
      | tail _ h1 ih =>
        obtain ⟨u, hu, v, hv, e1, e2, e3⟩ := ih
        obtain ⟨u', hu', v', hv', e1', e2', e3'⟩ := step _ _ h1
        have : u' = v := fileName_inj (ho.mem_iff.2 hu') (e1'.symm.trans e2)
        subst this
        exact ⟨u, hu, v', hv', e1, e2', e3.tail ⟨hv', e3'⟩⟩
    intro w hw
    obtain ⟨u, hu, v, hv, e1, e2, e3⟩ := key w w hw
    have : u = v := fileName_inj (ho.mem_iff.2 hu) (e1.symm.trans e2)
    subst this
    exact hB.acyclic u e3
  · intro w hw
    obtain ⟨v, hv, hvo, rfl⟩ := hmem w hw
    rw [BN.coded_states hvo]
    exact List.nodup_range.map hl
  · intro w hw
    obtain ⟨v, hv, hvo, rfl⟩ := hmem w hw
    rw [BN.coded_states hvo]
    have := List.length_pos_iff.2 (hB.nonempty v hv)
    intro hc
    have := congrArg List.length hc
    simp only [List.length_map, List.length_range, List.length_nil] at this
    omega
  · intro w hw x y hxy
    obtain ⟨v, hv, hvo, rfl⟩ := hmem w hw
    rw [BN.coded_table hvo, BN.coded_table hvo]
    refine hB.scope v hv _ _ fun u hu => ?_
    have : x (fileName order u) = y (fileName order u) := by
      refine hxy _ ?_
      rcases List.mem_cons.1 hu with rfl | hu
      · exact List.mem_cons_self
      · refine List.mem_cons_of_mem _ ?_
        rw [BN.coded_parents hvo]
        exact List.mem_map.2 ⟨u, hu, rfl⟩
    rw [decoded, decoded, this]

/-- `decoded` and positions -/
theorem idxOf_decoded (hl : Function.Injective lab) {u : V} (hn : (B.states u).Nodup) {x : Str → S'}
    (hx : x (fileName order u) ∈ (List.range (B.states u).length).map lab) :
    decoded B order lab x u ∈ B.states u ∧
      (B.states u).idxOf (decoded B order lab x u) = ((List.range (B.states u).length).map lab).idxOf (x (fileName order u)) := by
  have hlt : ((List.range (B.states u).length).map lab).idxOf (x (fileName order u)) < (B.states u).length := by
    have := List.idxOf_lt_length_of_mem hx
    simpa using this
  have e : decoded B order lab x u = (B.states u)[((List.range (B.states u).length).map lab).idxOf (x (fileName order u))]'hlt := by
    rw [decoded, List.getD_eq_getElem?_getD, List.getElem?_eq_getElem hlt]
    rfl
  rw [e]
  exact ⟨List.getElem_mem _, hn.idxOf_getElem _ hlt⟩

end Coded

namespace Uai

variable [Nonempty S] {I : StoreImpl V S (Fl K)}

/-- The domain of a scope -/
def scopeDom (B : BN V S K) (sc : List V) : Dom V S := sc.map fun w => (w, B.states w)

/-- The numbers of the table of `v` in the order of the scope -/
noncomputable def tableVals (B : BN V S K) (v : V) (sc : List V) : List (Fl K) :=
  (assignmentSpace (scopeDom B sc)).map fun o => .fin (B.table v (asg o))

theorem scopeDom_keys (B : BN V S K) (sc : List V) : Dict.keys (scopeDom B sc) = sc := by
  simp [scopeDom, Dict.keys, List.map_map, Function.comp_def]

theorem valuesArray_table {B : BN V S K} (hI : I.Lawful) {v : V} {g : Factor I} (hg : IsTable B v g) {sc : List V} (hne : sc ≠ []) (hn : sc.Nodup)
    (hsc : ∀ w, w ∈ sc ↔ w ∈ g.vars) :
    g.valuesArray sc = .ok ⟨cards (scopeDom B sc), tableVals B v sc⟩ := by
  have hd := hg.wf.domOk hI
  have hget : ∀ w ∈ sc, Dict.get? g.dom w = some (B.states w) := by
    intro w hw
    obtain ⟨st, hst⟩ := Dict.mem_keys.1 ((hsc w).1 hw)
    rw [Dict.get?_of_mem hd.keys hst, ← hg.dom _ hst]
  have hmap : (sc.mapM fun v => do
      let d ← Dict.get g.dom v
      return (v, d)) = (.ok (scopeDom B sc) : Py (Dom V S)) := by
    refine mapM_ok fun w hw => ?_
    simp [Dict.get, hget w hw]
  have hvals : (assignmentSpace (scopeDom B sc)).mapM g.getValue = .ok (tableVals B v sc) := by
    refine mapM_ok fun o ho => ?_
    refine hg.value o ?_
    have hk : (Dict.keys (scopeDom B sc)).Nodup := by rw [scopeDom_keys]; exact hn
    refine (mem_assignmentSpace_fullObs hk ho).mono fun p hp => ?_
    have h1 : p.1 ∈ sc := (hsc p.1).2 (Dict.mem_keys_of_mem hp)
    exact List.mem_map.2 ⟨p.1, h1, by rw [← hg.dom p hp]⟩
  rw [Factor.valuesArray, if_neg hne, hmap, py_ok_bind, hvals]
  rfl

theorem assignmentSpace_length (d : Dom V S) : (assignmentSpace d).length = (cards d).prod := by
  rw [assignmentSpace, List.length_map, stateSpace, length_product, List.map_map]
  rfl

/-- The factor that is read -/
theorem makeLeftStr_ok {I' : StoreImpl Str S' (Fl K)} (hI : I'.Lawful) {B : BN V S K} [Nonempty S'] (hB : B.Valid) {order : List V} (ho : order.Perm B.nodes)
    {lab : Nat → S'} (hl : Function.Injective lab) {nodes : List Str} {v : V} (hv : v ∈ B.nodes) {pa : List V} (hpn : (v :: pa).Nodup)
    (hpa : ∀ w, w ∈ pa ↔ w ∈ B.parents v) (hname : ∀ p ∈ B.parents v, ¬ fileName order p <:+: fileName order v) :
    ∃ f, makeLeftStr I' (fileName order v)
        ((pa ++ [v]).map fun w => (fileName order w, (List.range (B.states w).length).map lab)) (tableVals B v (pa ++ [v])) = .ok f ∧
      IsTable (B.coded order lab nodes) (fileName order v) f := by
  have hall : ∀ w ∈ pa ++ [v], w ∈ B.nodes := by
    intro w hw
    rcases List.mem_append.1 hw with h | h
    · exact hB.parents v hv w ((hpa w).1 h)
    · rw [List.mem_singleton.1 h]; exact hv
  have hio : ∀ w ∈ pa ++ [v], w ∈ order := fun w hw => ho.mem_iff.2 (hall w hw)
  have hscn : (pa ++ [v]).Nodup := (List.perm_append_singleton v pa).nodup_iff.2 hpn
  set d : Dom Str S' := (pa ++ [v]).map fun w => (fileName order w, (List.range (B.states w).length).map lab) with hd
  have hkeys : Dict.keys d = (pa ++ [v]).map (fileName order) := by
    simp [hd, Dict.keys, List.map_map, Function.comp_def]
  have hdok : DomOk d := by
    refine ⟨?_, ?_, ?_⟩
    · rw [hkeys]
      exact List.Nodup.map_on (fun u hu w _ h => fileName_inj (hio u hu) h) hscn
    · intro p hp
      obtain ⟨w, hw, rfl⟩ := List.mem_map.1 hp
      exact List.nodup_range.map hl
    · intro p hp
      obtain ⟨w, hw, rfl⟩ := List.mem_map.1 hp
      have := List.length_pos_iff.2 (hB.nonempty w (hall w hw))
      intro hc
      have := congrArg List.length hc
      simp only [List.length_map, List.length_range, List.length_nil] at this
      omega
  have hcards : cards d = cards (scopeDom B (pa ++ [v])) := by
    simp [hd, cards, scopeDom, List.map_map, Function.comp_def]
  have hlen : (tableVals B v (pa ++ [v])).length = (cards d).prod := by
    rw [tableVals, List.length_map, assignmentSpace_length, hcards]
  have hright : ((Dict.keys d).filter fun w => !isSub w (fileName order v)) = pa.map (fileName order) := by
    rw [hkeys, List.map_append, List.filter_append]
    have h1 : (pa.map (fileName order)).filter (fun w => !isSub w (fileName order v)) = pa.map (fileName order) := by
      rw [List.filter_eq_self]
      intro w hw
      obtain ⟨p, hp, rfl⟩ := List.mem_map.1 hw
      simpa [isSub] using hname p ((hpa p).1 hp)
    have h2 : ([v].map (fileName order)).filter (fun w => !isSub w (fileName order v)) = [] := by
      rw [List.filter_eq_nil_iff]
      intro w hw
      rw [List.map_cons, List.map_nil, List.mem_singleton] at hw
      subst hw
      simp [isSub, List.infix_refl]
    rw [h1, h2, List.append_nil]
  obtain ⟨f, f1, f2, f3, f4, f5⟩ := Factor.make_ok hI (left := none)
    (right := some (pa.map (fileName order))) (r := pa.map (fileName order)) hdok hlen rfl
  have hvo : v ∈ order := ho.mem_iff.2 hv
  have hvars : f.vars = (pa ++ [v]).map (fileName order) := by rw [Factor.vars, f3, hkeys]
  refine ⟨f, by rw [makeLeftStr, hright]; exact f1, f2, ?_, ?_, ?_, ?_, ?_⟩
  · intro w
    rw [Factor.leftVars, List.mem_filter, hvars, f4]
    constructor
    · rintro ⟨h1, h2⟩
      obtain ⟨u, hu, rfl⟩ := List.mem_map.1 h1
      rcases List.mem_append.1 hu with h | h
      · exact absurd (List.mem_map.2 ⟨u, h, rfl⟩) (by simpa using h2)
      · rw [List.mem_singleton.1 h]
    · rintro rfl
      refine ⟨List.mem_map.2 ⟨v, by simp, rfl⟩, ?_⟩
      have key : fileName order v ∉ pa.map (fileName order) := by
        intro hc
        obtain ⟨u, hu, h⟩ := List.mem_map.1 hc
        have := fileName_inj (hio u (List.mem_append.2 (.inl hu))) h
        exact (List.nodup_cons.1 hpn).1 (this ▸ hu)
      simpa using key
  · intro w
    rw [f4, BN.coded_parents hvo, List.mem_map, List.mem_map]
    exact exists_congr fun u => and_congr_left fun _ => hpa u
  · intro w
    rw [hvars, BN.coded_parents hvo]
    simp only [List.mem_map, List.mem_append, List.mem_singleton]
    constructor
    · rintro ⟨u, h | rfl, rfl⟩
      · exact .inr ⟨u, (hpa u).1 h, rfl⟩
      · exact .inl rfl
    · rintro (rfl | ⟨u, h, rfl⟩)
      · exact ⟨v, .inr rfl, rfl⟩
      · exact ⟨u, .inl ((hpa u).2 h), rfl⟩
  · intro p hp
    rw [f3] at hp
    obtain ⟨w, hw, rfl⟩ := List.mem_map.1 hp
    exact (BN.coded_states (hio w hw)).symm
  · intro obs hobs
    have hin : InDom d (asg obs) := f3 ▸ hobs.inDom
    rw [Factor.getValue_full hI f2 hobs, f5 _ hin, BN.coded_table hvo]
    have hst : ∀ w ∈ pa ++ [v], decoded B order lab (asg obs) w ∈ B.states w ∧
        (B.states w).idxOf (decoded B order lab (asg obs) w) =
          ((List.range (B.states w).length).map lab).idxOf (asg obs (fileName order w)) := fun w hw =>
      idxOf_decoded hl (hB.nodupStates w (hall w hw)) (hin _ (List.mem_map.2 ⟨w, hw, rfl⟩))
    have hco : coords d (asg obs) = coords (scopeDom B (pa ++ [v])) (decoded B order lab (asg obs)) := by
      simp only [hd, coords, scopeDom, List.map_map]
      refine List.map_congr_left fun w hw => ?_
      exact (hst w hw).2.symm
    have hin2 : InDom (scopeDom B (pa ++ [v])) (decoded B order lab (asg obs)) := by
      intro p hp
      obtain ⟨w, hw, rfl⟩ := List.mem_map.1 hp
      exact (hst w hw).1
    rw [hcards, hco, tableVals, List.getD_eq_getElem?_getD, List.getElem?_map, assignmentSpace_getElem? hin2]
    simp only [Option.map_some, Option.getD_some]
    congr 2
    refine hB.scope v hv _ _ fun u hu => ?_
    have hu' : u ∈ pa ++ [v] := by
      rcases List.mem_cons.1 hu with rfl | hu
      · simp
      · exact List.mem_append.2 (.inl ((hpa u).2 hu))
    have hc := covers_map (scopeDom B (pa ++ [v])) (decoded B order lab (asg obs)) (e := scopeDom B (pa ++ [v])) (fun v h => h) u
      (by rw [scopeDom_keys]; exact hu')
    exact over_of_get? hc

end Uai
end Verif
