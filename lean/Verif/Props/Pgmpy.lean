import Verif.Conv.Pgmpy
import Verif.Props.ExNet
import Verif.Graph.OrderingLemmas

/-!
# Properties of the conversions to and from pgmpy

* C65 the matrix handed over for a table has the value of state `i` given configuration `j` in row `i`, column `j`
* C75 a network is the same after the conversion to pgmpy and back
-/

set_option linter.unusedSectionVars false
set_option linter.unusedSimpArgs false

namespace Verif.Props
open Verif.Uai Verif.Pgmpy

variable {V S K : Type} [DecidableEq V] [DecidableEq S] [Nonempty S] [Field K] [LinearOrder K]

/-- `values` is the table of `v` as pgmpy wants it: a row for each state of `v`, a column for each
configuration of the parents `pa`, the last parent running fastest. -/
structure IsMatrix (B : BN V S K) (v : V) (pa : List V) (values : NdArray (Fl K)) : Prop where
  shape : values.shape = [(B.states v).length, (assignmentSpace (pa.map fun p => (p, B.states p))).length]
  size : values.WF
  cell : ∀ i s, (B.states v)[i]? = some s → ∀ j o, (assignmentSpace (pa.map fun p => (p, B.states p)))[j]? = some o →
    ∀ a : V → S, a v = s → (∀ p ∈ o, a p.1 = p.2) → values.get [i, j] = .fin (B.table v a)

section
variable {I : StoreImpl V S (Fl K)}

theorem cards_append (d e : Dom V S) : cards (d ++ e) = cards d ++ cards e := by simp [cards]

/-- The cell of a table -/
theorem tableVals_cell {B : BN V S K} (hB : B.Valid) {v : V} (hv : v ∈ B.nodes) {pa : List V} (hn : (pa ++ [v]).Nodup)
    (hpa : ∀ w, w ∈ pa ↔ w ∈ B.parents v) {a : V → S} (hs : ∀ u ∈ pa ++ [v], a u ∈ B.states u) :
    (tableVals B v (pa ++ [v])).getD ((B.states v).length * ravel (cards (scopeDom B pa)) (coords (scopeDom B pa) a) + (B.states v).idxOf (a v))
      default = .fin (B.table v a) := by
  have hin : InDom (scopeDom B (pa ++ [v])) a := by
    intro p hp
    obtain ⟨u, hu, rfl⟩ := List.mem_map.1 hp
    exact hs u hu
  have h := assignmentSpace_getElem? hin
  have e : ravel (cards (scopeDom B (pa ++ [v]))) (coords (scopeDom B (pa ++ [v])) a) =
      (B.states v).length * ravel (cards (scopeDom B pa)) (coords (scopeDom B pa) a) + (B.states v).idxOf (a v) := by
    have e1 : scopeDom B (pa ++ [v]) = scopeDom B pa ++ [(v, B.states v)] := by simp [scopeDom]
    rw [e1, cards_append, coords, List.map_append]
    rw [NdArray.ravel_append (by simp [cards])]
    simp [cards, coords]
  rw [← e, tableVals, List.getD_eq_getElem?_getD, List.getElem?_map, h]
  simp only [Option.map_some, Option.getD_some]
  congr 1
  refine hB.scope v hv _ _ fun u hu => ?_
  refine over_of_get? (covers_map (scopeDom B (pa ++ [v])) a (e := scopeDom B (pa ++ [v])) (fun v h => h) u ?_)
  rw [scopeDom_keys]
  rcases List.mem_cons.1 hu with rfl | hu
  · simp
  · exact List.mem_append.2 (.inl ((hpa u).2 hu))

theorem tableVals_length (B : BN V S K) (v : V) (sc : List V) : (tableVals B v sc).length = (cards (scopeDom B sc)).prod := by
  rw [tableVals, List.length_map, assignmentSpace_length]

/-- The transposed matrix of the flat table -/
theorem isMatrix {B : BN V S K} (hB : B.Valid) {v : V} (hv : v ∈ B.nodes) {pa : List V} (hn : (pa ++ [v]).Nodup)
    (hpa : ∀ w, w ∈ pa ↔ w ∈ B.parents v) :
    IsMatrix B v pa (NdArray.transpose ⟨[(cards (scopeDom B pa)).prod, (B.states v).length], tableVals B v (pa ++ [v])⟩) where
  shape := by
    show [_, _] = [_, _]
    rw [← assignmentSpace_length]
    rfl
  size := NdArray.wf_build _ _
  cell := by
    intro i s hi j o hj a hav hao
    have hnodes : ∀ u ∈ pa ++ [v], u ∈ B.nodes := by
      intro u hu
      rcases List.mem_append.1 hu with h | h
      · exact hB.parents v hv u ((hpa u).1 h)
      · rw [List.mem_singleton.1 h]; exact hv
    have hdp : DomOk (scopeDom B pa) := by
      refine ⟨by rw [scopeDom_keys]; exact hn.of_append_left, ?_, ?_⟩
      · intro p hp
        obtain ⟨u, hu, rfl⟩ := List.mem_map.1 hp
        exact hB.nodupStates u (hnodes u (List.mem_append.2 (.inl hu)))
      · intro p hp
        obtain ⟨u, hu, rfl⟩ := List.mem_map.1 hp
        exact hB.nonempty u (hnodes u (List.mem_append.2 (.inl hu)))
    have hom := List.mem_of_getElem? hj
    have hfull := mem_assignmentSpace_fullObs hdp.keys hom
    have hoa : ∀ u ∈ pa, a u = asg o u := by
      intro u hu
      have hc := hfull.covers u (by rw [scopeDom_keys]; exact hu)
      rw [hao _ (Dict.mem_of_get? hc)]
    have hap : InDom (scopeDom B pa) a := by
      intro p hp
      obtain ⟨u, hu, rfl⟩ := List.mem_map.1 hp
      rw [hoa u hu]
      exact hfull.inDom _ hp
    have hs : ∀ u ∈ pa ++ [v], a u ∈ B.states u := by
      intro u hu
      rcases List.mem_append.1 hu with h | h
      · exact hap _ (List.mem_map.2 ⟨u, h, rfl⟩)
      · rw [List.mem_singleton.1 h, hav]; exact List.mem_of_getElem? hi
    have hii : (B.states v).idxOf (a v) = i := by
      rw [hav]
      obtain ⟨hlt, hx⟩ := List.getElem?_eq_some_iff.1 hi
      rw [← hx]
      exact (hB.nodupStates v hv).idxOf_getElem i hlt
    have hjj : ravel (cards (scopeDom B pa)) (coords (scopeDom B pa) a) = j := by
      have h1 := assignmentSpace_getElem? hap
      obtain ⟨hl1, h1⟩ := List.getElem?_eq_some_iff.1 h1
      obtain ⟨hl2, h2⟩ := List.getElem?_eq_some_iff.1 hj
      have h3 : o = (scopeDom B pa).map fun p => (p.1, a p.1) := by
        refine (mem_assignmentSpace hdp.keys hom fun _ => Classical.arbitrary S).2.trans (List.map_congr_left fun p hp => ?_)
        obtain ⟨u, hu, rfl⟩ := List.mem_map.1 hp
        exact Prod.ext rfl (hoa u hu).symm
      exact ((nodup_assignmentSpace hdp).getElem_inj_iff (hi := hl1) (hj := hl2)).1 (h1.trans (h3.symm.trans h2.symm))
    have hlt1 : i < (B.states v).length := (List.getElem?_eq_some_iff.1 hi).1
    have hlt2 : j < (cards (scopeDom B pa)).prod := by
      rw [← assignmentSpace_length]; exact (List.getElem?_eq_some_iff.1 hj).1
    rw [NdArray.transpose, NdArray.get_build]
    · have := tableVals_cell hB hv hn hpa hs
      rw [hii, hjj] at this
      rw [← this]
      simp [NdArray.get]
    · exact .cons hlt1 (.cons hlt2 .nil)


theorem matrix_big {α : Type} (c c' : Nat) (r : List Nat) (k : Nat) (fl : List α) :
    matrix ⟨(c :: c' :: r) ++ [k], fl⟩ = if (c :: c' :: r).prod * c = fl.length then .ok ⟨[(c :: c' :: r).prod, c], fl⟩ else .error .valueError := by
  have h1 : ¬ ((c :: c' :: r) ++ [k]).length < 2 := by simp
  have h2 : ((c :: c' :: r) ++ [k]).length > 2 := by simp
  simp only [matrix, if_neg h1]
  rw [if_pos h2, NdArray.reshape2, List.dropLast_concat]
  rfl

theorem dom_eq {B : BN V S K} {v : V} {f : Factor I} (hf : IsTable B v f) : f.dom = scopeDom B f.vars := by
  rw [scopeDom, Factor.vars, Dict.keys, List.map_map]
  conv_lhs => rw [← List.map_id f.dom]
  exact List.map_congr_left fun p hp => Prod.ext rfl (hf.dom p hp)

theorem card_get {B : BN V S K} {v : V} {f : Factor I} (hf : IsTable B v f) {w : V} (hw : w ∈ f.vars) :
    Dict.get (f.dom.map fun p => (p.1, p.2.length)) w = (.ok (B.states w).length : Py Nat) := by
  have h1 : Dict.get? (f.dom.map fun p => (p.1, p.2.length)) w = (Dict.get? f.dom w).map fun st => st.length :=
    Dict.get?_map_snd f.dom (fun _ st => st.length) w
  obtain ⟨st, hst⟩ := Option.ne_none_iff_exists'.1 fun h => Dict.get?_eq_none.1 h hw
  have := hf.dom _ (Dict.mem_of_get? hst)
  simp only at this
  rw [Dict.get, h1, hst]
  simp [this]

theorem leftDomain_keys {B : BN V S K} {v : V} {f : Factor I} (hI : I.Lawful) (hf : IsTable B v f) : Dict.keys f.leftDomain = [v] := by
  have hn : f.vars.Nodup := (hf.wf.domOk hI).keys
  have h1 : Dict.keys f.leftDomain = f.vars.filter fun w => w ∈ f.leftVars := by
    rw [Factor.leftDomain, Factor.vars, Dict.keys, Dict.keys, List.filter_map]
    rfl
  rw [h1]
  refine List.perm_singleton.1 ((List.perm_ext_iff_of_nodup (hn.filter _) (by simp)).2 fun w => ?_)
  simp only [List.mem_filter, decide_eq_true_eq, List.mem_singleton]
  constructor
  · exact fun h => (hf.left w).1 h.2
  · rintro rfl
    exact ⟨(hf.vars w).2 (.inl rfl), (hf.left w).2 rfl⟩

/-- What `toTabularCPT` does, up to the matrix -/
theorem toTabularArgs_eq {B : BN V S K} {v : V} {f : Factor I} (hI : I.Lawful) (hf : IsTable B v f) :
    toTabularArgs f = (matrix ⟨cards (scopeDom B f.vars), tableVals B v f.vars⟩ >>= fun values =>
      .ok ⟨v, (B.states v).length, values.transpose, f.dom, f.rightVars, cards (scopeDom B f.rightVars)⟩) := by
  have hn : f.vars.Nodup := (hf.wf.domOk hI).keys
  have hne : f.vars ≠ [] := List.ne_nil_of_mem ((hf.vars v).2 (.inl rfl))
  have hv := valuesArray_table hI hf hne hn (fun w => Iff.rfl)
  have hv' : f.valuesArray [] = .ok ⟨cards (scopeDom B f.vars), tableVals B v f.vars⟩ := by
    rw [← hv, Factor.valuesArray, Factor.valuesArray, if_pos rfl, if_neg hne]
  have hec : (f.rightVars.mapM fun p => Dict.get (f.dom.map fun p => (p.1, p.2.length)) p) =
      (.ok (cards (scopeDom B f.rightVars)) : Py _) := by
    have : cards (scopeDom B f.rightVars) = f.rightVars.map fun p => (B.states p).length := by
      simp [cards, scopeDom, List.map_map, Function.comp_def]
    rw [this]
    exact mapM_ok fun w hw => card_get hf ((hf.vars w).2 (.inr ((hf.right w).1 hw)))
  rw [toTabularArgs, leftDomain_keys hI hf]
  simp only [py_ok_bind, hv', card_get hf ((hf.vars v).2 (.inl rfl)), hec]
  rfl

end

/-- **C65** for a table whose variable comes last and whose parents are in the order of the evidence: the matrix is the one
pgmpy asks for, if there is at most one parent or the first parent has as many states as the variable. Partial: with
more parents and another number of states, `C65_raises`; with the variables in another order, `C65_order`. -/
theorem C65_table_partial (vt : VType) {B : BN V S K} (hB : B.Valid) {v : V} (hv : v ∈ B.nodes)
    {f : Factor (storeOf vt : StoreImpl V S (Fl K))} (hf : IsTable B v f) (hord : f.vars = f.rightVars ++ [v])
    (hc : f.rightVars.length ≤ 1 ∨ ∀ p ∈ f.rightVars.head?, (B.states p).length = (B.states v).length) :
    ∃ t, toTabularArgs f = .ok t ∧ t.variable_ = v ∧ t.variableCard = (B.states v).length ∧ t.evidence = f.rightVars ∧
      t.evidenceCard = f.rightVars.map (fun p => (B.states p).length) ∧ t.stateNames = f.dom ∧ IsMatrix B v f.rightVars t.values := by
  have hI := storeOf_lawful (V := V) (S := S) (α := Fl K) vt
  have hn : (f.rightVars ++ [v]).Nodup := hord ▸ (hf.wf.domOk hI).keys
  have hm : matrix ⟨cards (scopeDom B f.vars), tableVals B v f.vars⟩ =
      .ok ⟨[(cards (scopeDom B f.rightVars)).prod, (B.states v).length], tableVals B v (f.rightVars ++ [v])⟩ := by
    have hlen := tableVals_length B v (f.rightVars ++ [v])
    have e1 : ∀ r : List V, scopeDom B (r ++ [v]) = scopeDom B r ++ [(v, B.states v)] := fun r => by simp [scopeDom]
    rw [hord]
    rw [e1, cards_append] at hlen ⊢
    generalize tableVals B v (f.rightVars ++ [v]) = fl at hlen
    rcases hr : f.rightVars with _ | ⟨p, _ | ⟨p', r⟩⟩
    · simp [matrix, cards, scopeDom]
    · simp [matrix, cards, scopeDom]
    · rw [hr] at hc
      have hc := hc.resolve_left (by simp) p rfl
      rw [hr] at hlen
      have e2 : cards (scopeDom B (p :: p' :: r)) = (B.states p).length :: (B.states p').length :: cards (scopeDom B r) := rfl
      have e3 : cards [(v, B.states v)] = [(B.states v).length] := rfl
      rw [e2, e3] at hlen ⊢
      rw [matrix_big, if_pos, hc]
      rw [hlen, hc, List.prod_append, List.prod_singleton]
  refine ⟨_, by rw [toTabularArgs_eq hI hf, hm, py_ok_bind], rfl, rfl, rfl, ?_, rfl, isMatrix hB hv hn hf.right⟩
  simp [cards, scopeDom, List.map_map, Function.comp_def]

/-- **C65** with two or more parents of which the first has another number of states than the variable, the export fails. -/
theorem C65_raises (vt : VType) {B : BN V S K} (hB : B.Valid) {v : V} (hv : v ∈ B.nodes)
    {f : Factor (storeOf vt : StoreImpl V S (Fl K))} (hf : IsTable B v f) (hord : f.vars = f.rightVars ++ [v])
    {p p' : V} {r : List V} (hr : f.rightVars = p :: p' :: r) (hc : (B.states p).length ≠ (B.states v).length) :
    toTabularArgs f = .error .valueError := by
  have hI := storeOf_lawful (V := V) (S := S) (α := Fl K) vt
  have hlen := tableVals_length B v f.vars
  have hpos : 0 < (cards (scopeDom B f.rightVars)).prod := by
    refine List.prod_pos fun x hx => ?_
    obtain ⟨q, hq, rfl⟩ := List.mem_map.1 hx
    obtain ⟨u, hu, rfl⟩ := List.mem_map.1 hq
    exact List.length_pos_iff.2 (hB.nonempty u (hB.parents v hv u ((hf.right u).1 hu)))
  rw [toTabularArgs_eq hI hf]
  rw [hord, hr] at hlen ⊢
  rw [hr] at hpos
  generalize tableVals B v (p :: p' :: r ++ [v]) = fl at hlen
  have e1 : scopeDom B (p :: p' :: r ++ [v]) = scopeDom B (p :: p' :: r) ++ [(v, B.states v)] := by simp [scopeDom]
  have e2 : cards (scopeDom B (p :: p' :: r)) = (B.states p).length :: (B.states p').length :: cards (scopeDom B r) := rfl
  have e3 : cards [(v, B.states v)] = [(B.states v).length] := rfl
  rw [e1, cards_append, e2, e3] at hlen ⊢
  rw [e2] at hpos
  rw [matrix_big, if_neg]
  · rfl
  · rw [hlen, List.prod_append, List.prod_singleton]
    exact fun h => hc (Nat.eq_of_mul_eq_mul_left hpos h)

/-! ### C75 -/

/-- The object of pgmpy is the table of `v` -/
structure IsCpd (B : BN V S K) (v : V) (c : TabularCPD V S (Fl K)) : Prop where
  var : c.variable_ = v
  scope : ∀ w, w ∈ c.variables_ ↔ w = v ∨ w ∈ B.parents v
  names : (Dict.keys c.stateNames).Nodup ∧ ∀ w, w ∈ Dict.keys c.stateNames ↔ w = v ∨ w ∈ B.parents v
  states : ∀ p ∈ c.stateNames, p.2 = B.states p.1
  value : ∀ obs, FullObs c.stateNames obs → c.getValue obs = .ok (.fin (B.table v (asg obs)))

/-- **C75** a table of pgmpy becomes a factor with the same numbers. -/
theorem C75_import (vt : VType) {B : BN V S K} (hB : B.Valid) {v : V} (hv : v ∈ B.nodes) {c : TabularCPD V S (Fl K)} (hc : IsCpd B v c) :
    ∃ f, toMultinomialFactor (storeOf vt : StoreImpl V S (Fl K)) c = .ok f ∧ IsTable B v f := by
  have hI := storeOf_lawful (V := V) (S := S) (α := Fl K) vt
  have hvp : v ∉ B.parents v := fun h => hB.acyclic v (.single ⟨hv, h⟩)
  have hnode : ∀ w ∈ Dict.keys c.stateNames, w ∈ B.nodes := by
    intro w hw
    rcases (hc.names.2 w).1 hw with rfl | h
    · exact hv
    · exact hB.parents v hv w h
  have hd : DomOk c.stateNames := by
    refine ⟨hc.names.1, fun p hp => ?_, fun p hp => ?_⟩
    · rw [hc.states p hp]; exact hB.nodupStates _ (hnode _ (Dict.mem_keys_of_mem hp))
    · rw [hc.states p hp]; exact hB.nonempty _ (hnode _ (Dict.mem_keys_of_mem hp))
  have hvals : (assignmentSpace c.stateNames).mapM c.getValue =
      .ok ((assignmentSpace c.stateNames).map fun o => Fl.fin (B.table v (asg o))) :=
    mapM_ok fun o ho => hc.value o (mem_assignmentSpace_fullObs hd.keys ho)
  obtain ⟨f, f1, f2, f3, f4, f5⟩ := Factor.make_ok hI (left := none) (right := some (c.variables_.filter fun v => v ≠ c.variable_))
    (values := (assignmentSpace c.stateNames).map fun o => Fl.fin (B.table v (asg o))) hd
    (by rw [List.length_map, assignmentSpace_length]) rfl
  have hvars : f.vars = Dict.keys c.stateNames := by rw [Factor.vars, f3]
  have hright : ∀ w, w ∈ f.rightVars ↔ w ∈ B.parents v := by
    intro w
    rw [f4, List.mem_filter, hc.scope, hc.var]
    constructor
    · rintro ⟨rfl | h, h2⟩
      · simp at h2
      · exact h
    · exact fun h => ⟨.inr h, decide_eq_true fun e => hvp (e ▸ h)⟩
  refine ⟨f, by rw [toMultinomialFactor, hvals, py_ok_bind]; exact f1, f2, ?_, hright, ?_, ?_, ?_⟩
  · intro w
    rw [Factor.leftVars, List.mem_filter, hvars, hc.names.2]
    constructor
    · rintro ⟨h | h, h2⟩
      · exact h
      · exact absurd ((hright w).2 h) (by simpa using h2)
    · rintro rfl
      exact ⟨.inl rfl, by simpa using fun h => hvp ((hright w).1 h)⟩
  · intro w; rw [hvars, hc.names.2]
  · intro p hp; exact hc.states p (f3 ▸ hp)
  · intro obs hobs
    have hin : InDom c.stateNames (asg obs) := f3 ▸ hobs.inDom
    rw [Factor.getValue_full hI f2 hobs, f5 _ hin, List.getD_eq_getElem?_getD, List.getElem?_map, assignmentSpace_getElem? hin]
    simp only [Option.map_some, Option.getD_some]
    congr 2
    refine hB.scope v hv _ _ fun u hu => ?_
    refine over_of_get? (covers_map c.stateNames (asg obs) (e := c.stateNames) (fun v h => h) u ((hc.names.2 u).2 ?_))
    exact List.mem_cons.1 hu

/-- **C75** the table that is handed over is the one pgmpy then has: the conversion of a factor, under the conditions of
`C65_table_partial`. -/
theorem C75_export_partial (vt : VType) {B : BN V S K} (hB : B.Valid) {v : V} (hv : v ∈ B.nodes)
    {f : Factor (storeOf vt : StoreImpl V S (Fl K))} (hf : IsTable B v f) (hord : f.vars = f.rightVars ++ [v])
    (hc : f.rightVars.length ≤ 1 ∨ ∀ p ∈ f.rightVars.head?, (B.states p).length = (B.states v).length) :
    ∃ c, toTabularCPT f = .ok c ∧ IsCpd B v c := by
  have hI := storeOf_lawful (V := V) (S := S) (α := Fl K) vt
  obtain ⟨t, h1, h2, h3, h4, h5, h6, h7⟩ := C65_table_partial vt hB hv hf hord hc
  have hcards : cards (scopeDom B f.rightVars) = f.rightVars.map fun p => (B.states p).length := by
    simp [cards, scopeDom, List.map_map, Function.comp_def]
  have hsh : t.values.shape = [t.variableCard, t.evidenceCard.prod] := by
    rw [h7.shape, h3, h5, ← hcards, ← assignmentSpace_length]
    rfl
  refine ⟨_, by rw [toTabularCPT, h1, py_ok_bind, TabularCPD.ofArgs, if_pos hsh], h2, ?_, ?_, ?_, ?_⟩
  · intro w
    show w ∈ t.variable_ :: t.evidence ↔ _
    rw [h2, h4, List.mem_cons, hf.right]
  · show (Dict.keys t.stateNames).Nodup ∧ ∀ w, w ∈ Dict.keys t.stateNames ↔ _
    rw [h6]
    exact ⟨(hf.wf.domOk hI).keys, hf.vars⟩
  · intro p hp
    exact hf.dom p (h6 ▸ hp)
  · intro obs hobs
    have hobs : FullObs f.dom obs := h6 ▸ hobs
    have hmem : ∀ w ∈ v :: f.rightVars, w ∈ f.vars := by
      intro w hw
      rcases List.mem_cons.1 hw with rfl | hw
      · exact (hf.vars w).2 (.inl rfl)
      · exact (hf.vars w).2 (.inr ((hf.right w).1 hw))
    have hst : ∀ w ∈ f.vars, Dict.get? f.dom w = some (B.states w) ∧ Dict.get? obs w = some (asg obs w) ∧ asg obs w ∈ B.states w := by
      intro w hw
      obtain ⟨st, hst⟩ := Option.ne_none_iff_exists'.1 fun h => Dict.get?_eq_none.1 h hw
      have hm := Dict.mem_of_get? hst
      have e := hf.dom _ hm
      simp only at e
      subst e
      exact ⟨hst, hobs.covers w hw, hobs.inDom _ hm⟩
    have hidx : (t.variable_ :: t.evidence).mapM (fun v => do
        let st ← Dict.get t.stateNames v
        let x ← Dict.get obs v
        if x ∈ st then return st.idxOf x else .error .keyError) =
        (.ok ((v :: f.rightVars).map fun w => (B.states w).idxOf (asg obs w)) : Py _) := by
      rw [h2, h4, h6]
      refine mapM_ok fun w hw => ?_
      obtain ⟨g1, g2, g3⟩ := hst w (hmem w hw)
      simp [Dict.get, g1, g2, g3]
    rw [TabularCPD.getValue]
    show (_ >>= _) = _
    rw [hidx, py_ok_bind]
    have hap : InDom (scopeDom B f.rightVars) (asg obs) := by
      intro p hp
      obtain ⟨u, hu, rfl⟩ := List.mem_map.1 hp
      exact (hst u (hmem u (by simp [hu]))).2.2
    have hcell := h7.cell ((B.states v).idxOf (asg obs v)) (asg obs v) ?_ (ravel (cards (scopeDom B f.rightVars)) (coords (scopeDom B f.rightVars) (asg obs)))
      _ (assignmentSpace_getElem? hap) (asg obs) rfl ?_
    · rw [← hcell]
      have e3 : coords (scopeDom B f.rightVars) (asg obs) = f.rightVars.map fun w => (B.states w).idxOf (asg obs w) := by
        simp [coords, scopeDom, List.map_map, Function.comp_def]
      simp only [NdArray.get, List.map_cons, h3, h5, ravel_cons]
      rw [hsh, h3, h5, hcards, e3]
      simp
    · obtain ⟨_, _, g3⟩ := hst v (hmem v (by simp))
      rw [List.getElem?_eq_getElem (List.idxOf_lt_length_of_mem g3), List.getElem_idxOf]
    · intro p hp
      obtain ⟨q, _, rfl⟩ := List.mem_map.1 hp
      rfl

/-- The network with its nodes in another order -/
def _root_.Verif.BN.reorder (B : BN V S K) (nodes : List V) : BN V S K := { B with nodes := nodes }

theorem _root_.Verif.BN.Valid.reorder {B : BN V S K} (hB : B.Valid) {nodes : List V} (h : nodes.Perm B.nodes) : (B.reorder nodes).Valid where
  nodes := h.nodup_iff.2 hB.nodes
  parents v hv p hp := h.mem_iff.2 (hB.parents v (h.mem_iff.1 hv) p hp)
  acyclic v hv := hB.acyclic v (Relation.TransGen.mono (fun _ _ hx => ⟨h.mem_iff.1 hx.1, hx.2⟩) _ _ hv)
  nodupStates v hv := hB.nodupStates v (h.mem_iff.1 hv)
  nonempty v hv := hB.nonempty v (h.mem_iff.1 hv)
  scope v hv := hB.scope v (h.mem_iff.1 hv)

/-- **C75** a network of pgmpy becomes a network with the same parents, states and tables. Partial: each variable has to have
an arc (`C75_isolated`). -/
theorem C75_net_partial (vt : VType) {B : BN V S K} (hB : B.Valid) {n : PgmpyNet V S (Fl K)}
    (hcp : List.Forall₂ (IsCpd B) B.nodes n.cpds) (he : ∀ p v, (p, v) ∈ n.edges ↔ v ∈ B.nodes ∧ p ∈ B.parents v)
    (hen : n.edges.Nodup) (hcon : ∀ v ∈ B.nodes, B.parents v ≠ [] ∨ ∃ w ∈ B.nodes, v ∈ B.parents w) :
    ∃ m nodes, toBCauseBNet (storeOf vt : StoreImpl V S (Fl K)) n = .ok m ∧ nodes.Perm B.nodes ∧ Represents m (B.reorder nodes) := by
  have hgw := ofEdges_wf n.edges
  have hge : (DiGraph.ofEdges n.edges).edges = n.edges := ofEdges_edges hen
  have hperm : (DiGraph.ofEdges n.edges).nodes.Perm B.nodes := by
    refine (List.perm_ext_iff_of_nodup hgw.nodes hB.nodes).2 fun w => ?_
    rw [ofEdges_nodes]
    constructor
    · rintro ⟨⟨p, v⟩, h, rfl | rfl⟩
      · obtain ⟨hv, hp⟩ := (he _ _).1 h
        exact hB.parents v hv _ hp
      · exact ((he _ _).1 h).1
    · intro hw
      rcases hcon w hw with h | ⟨v, hv, h⟩
      · obtain ⟨p, hp⟩ := List.exists_mem_of_ne_nil _ h
        exact ⟨(p, w), (he _ _).2 ⟨hw, hp⟩, .inr rfl⟩
      · exact ⟨(w, v), (he _ _).2 ⟨hv, h⟩, .inl rfl⟩
  obtain ⟨l, hl1, hl2, hl3⟩ : ∃ l : List (V × Factor (storeOf vt : StoreImpl V S (Fl K))),
      (n.cpds.mapM fun c => do
        let f ← toMultinomialFactor (storeOf vt : StoreImpl V S (Fl K)) c
        return (c.variable_, some f)) = .ok (l.map fun p => (p.1, some p.2)) ∧ Dict.keys l = B.nodes ∧ ∀ p ∈ l, IsTable B p.1 p.2 := by
    have hsub : ∀ v ∈ B.nodes, v ∈ B.nodes := fun _ h => h
    revert hcp hsub
    generalize n.cpds = cs
    generalize hvs : B.nodes = vs
    intro hcp hsub
    rw [← hvs] at hsub
    have hsub : ∀ v ∈ vs, v ∈ B.nodes := hvs ▸ hsub
    clear hvs he hcon hperm
    induction hcp with
    | nil => exact ⟨[], rfl, rfl, by simp⟩
    | @cons v c vs cs hc _ ih =>
      obtain ⟨l, h1, h2, h3⟩ := ih fun v hv => hsub v (List.mem_cons_of_mem _ hv)
      obtain ⟨f, f1, f2⟩ := C75_import vt hB (hsub v List.mem_cons_self) hc
      refine ⟨(v, f) :: l, ?_, by simp [Dict.keys] at h2 ⊢; exact h2, ?_⟩
      · rw [List.mapM_cons, f1, py_ok_bind, h1, hc.var]
        rfl
      · intro p hp
        rcases List.mem_cons.1 hp with rfl | hp
        · exact f2
        · exact h3 p hp
  obtain ⟨r1, r2⟩ := DagModel.ofDict_factors (I := (storeOf vt : StoreImpl V S (Fl K))) (hB.reorder hperm) hgw rfl
    (fun v hv p => by
      rw [hge, he]
      exact ⟨fun h => ⟨hperm.mem_iff.1 hv, h⟩, fun h => h.2⟩) (l := l) (by rw [hl2]; exact hperm.symm)
    (fun p hp => ⟨(hl3 p hp).wf, (hl3 p hp).left, (hl3 p hp).right, (hl3 p hp).vars, (hl3 p hp).dom, (hl3 p hp).value⟩) true
  exact ⟨_, _, by rw [toBCauseBNet, hl1, py_ok_bind]; exact r1, hperm, r2⟩

theorem forall₂_map_self {X Y : Type} {R : X → Y → Prop} {f : X → Y} {l : List X} (h : ∀ x ∈ l, R x (f x)) : List.Forall₂ R l (l.map f) := by
  rw [List.forall₂_map_right_iff, List.forall₂_same]
  exact h

/-- **C75** a network goes to pgmpy and comes back with the same parents, states and tables: if each variable has an arc, in
each factor the variable comes after its parents, and with two or more parents the first has as many states as the variable. -/
theorem C75_round_trip_partial (vt vt' : VType) {B : BN V S K} (hB : B.Valid) {m : DagModel (Factor (storeOf vt : StoreImpl V S (Fl K))) V S}
    (hm : Represents m B) (hcon : ∀ v ∈ B.nodes, B.parents v ≠ [] ∨ ∃ w ∈ B.nodes, v ∈ B.parents w)
    (hok : ∀ v f, (v, some f) ∈ m.factors → f.vars = f.rightVars ++ [v] ∧
      (f.rightVars.length ≤ 1 ∨ ∀ p ∈ f.rightVars.head?, (B.states p).length = (B.states v).length)) :
    ∃ n m' nodes, toPgmpyBNet m = .ok n ∧ toBCauseBNet (storeOf vt' : StoreImpl V S (Fl K)) n = .ok m' ∧ nodes.Perm B.nodes ∧
      Represents m' (B.reorder nodes) := by
  have hkn : (Dict.keys m.factors).Nodup := by rw [hm.keys, hm.nodes]; exact hB.nodes
  have hall : ∀ v ∈ B.nodes, ∃ f c, Dict.get? m.factors v = some (some f) ∧ toTabularCPT f = .ok c ∧ IsCpd B v c := by
    intro v hv
    obtain ⟨f, g, g1, g2, g3⟩ := hm.table v hv
    cases g2
    obtain ⟨h1, h2⟩ := hok v f (Dict.mem_of_get? g1)
    obtain ⟨c, c1, c2⟩ := C75_export_partial vt hB hv g3 h1 h2
    exact ⟨f, c, g1, c1, c2⟩
  have hne : ∀ v ∈ B.nodes, Nonempty (TabularCPD V S (Fl K)) := fun v hv => ⟨(hall v hv).choose_spec.choose⟩
  by_cases hemp : B.nodes = []
  · have hf : m.factors = [] := by
      have := hm.keys.trans (hm.nodes.trans hemp)
      simpa [Dict.keys] using this
    have hn : m.graph.nodes = [] := hm.nodes.trans hemp
    have hpg : toPgmpyBNet m = .ok ⟨[], [], []⟩ := by
      rw [toPgmpyBNet, hf, hn]; rfl
    obtain ⟨m', nodes, h1, h2, h3⟩ := C75_net_partial vt' hB (n := ⟨[], [], []⟩) (by rw [hemp]; exact .nil) (by simp [hemp]) (by simp) hcon
    exact ⟨_, m', nodes, hpg, h1, h2, h3⟩
  obtain ⟨v0, hv0⟩ := List.exists_mem_of_ne_nil _ hemp
  haveI : Nonempty (TabularCPD V S (Fl K)) := hne v0 hv0
  haveI : Nonempty (Factor (storeOf vt : StoreImpl V S (Fl K))) := ⟨(hall v0 hv0).choose⟩
  choose! F C hF hC hI using hall
  have hcs : m.factors.mapM exportOne = (.ok (m.factors.map fun p => C p.1) : Py _) := by
    refine mapM_ok fun p hp => ?_
    have hpn : p.1 ∈ B.nodes := by rw [← hm.nodes, ← hm.keys]; exact Dict.mem_keys_of_mem hp
    have := Dict.get?_of_mem (k := p.1) (v := p.2) hkn hp
    rw [hF p.1 hpn] at this
    rw [exportOne, ← Option.some.inj this]
    exact hC p.1 hpn
  have hcs' : (m.factors.map fun p => C p.1) = B.nodes.map C := by
    rw [← hm.nodes, ← hm.keys, Dict.keys, List.map_map]
    rfl
  have hpg : toPgmpyBNet m = .ok ⟨m.graph.nodes, m.graph.nodes.flatMap fun v => (m.graph.pred v).map fun p => (p, v), B.nodes.map C⟩ := by
    rw [toPgmpyBNet]
    rw [hcs, py_ok_bind, hcs']
    rfl
  obtain ⟨m', nodes, h1, h2, h3⟩ := C75_net_partial vt' hB
    (n := ⟨m.graph.nodes, m.graph.nodes.flatMap fun v => (m.graph.pred v).map fun p => (p, v), B.nodes.map C⟩)
    (forall₂_map_self hI) (by
      intro p v
      simp only [List.mem_flatMap, List.mem_map, Prod.mk.injEq, DiGraph.mem_pred, hm.nodes]
      constructor
      · rintro ⟨w, hw, u, hu, rfl, rfl⟩
        exact ⟨hw, (hm.parents w hw u).2 hu⟩
      · rintro ⟨hv, hp⟩
        exact ⟨v, hv, p, (hm.parents v hv p).1 hp, rfl, rfl⟩) (by
      refine List.nodup_flatMap.2 ⟨fun v _ => (Ordering.pred_nodup hm.wf v).map fun _ _ h => (Prod.mk.inj h).1, ?_⟩
      refine (hm.wf.nodes).imp fun {v w} hvw => ?_
      intro e h1 h2
      obtain ⟨p, _, rfl⟩ := List.mem_map.1 h1
      obtain ⟨p', _, h⟩ := List.mem_map.1 h2
      exact hvw (Prod.mk.inj h).2.symm) hcon
  exact ⟨_, m', nodes, hpg, h1, h2, h3⟩

/-! ### Examples -/

/-- `A`, `B` → `C` -/
def gCollider : DiGraph Char := ⟨['A', 'B', 'C'], [('A', 'C'), ('B', 'C')]⟩

/-- `A` and `C` have two states, `B` has three -/
def rowsCollider : List Row :=
  [([('A', ['a', 'b'])], [q (1/3), q (2/3)], 'A'),
   ([('B', ['c', 'd', 'e'])], [q (1/4), q (1/4), q (1/2)], 'B'),
   ([('A', ['a', 'b']), ('B', ['c', 'd', 'e']), ('C', ['a', 'b'])],
      [q (1/2), q (1/2), q (1/3), q (2/3), q 0, q 1, q (1/4), q (3/4), q (1/5), q (4/5), q 1, q 0], 'C')]

theorem netCheck_col (vt : VType) : netCheck vt gCollider rowsCollider = true := by
  cases vt <;> decide +kernel

/-- The rest of what is needed for the conversion, evaluated -/
def pgmpyCheck (vt : VType) (g : DiGraph Char) (rows : List Row) : Bool :=
  match netOf vt g rows with
  | .ok m =>
    let B : BN Char Char ℚ := BN.ofModel (IQ vt) m
    B.nodes.all (fun v => decide (B.parents v ≠ []) || B.nodes.any fun w => v ∈ B.parents w) &&
      m.factors.all (fun p => match p.2 with
        | none => true
        | some f => decide (f.vars = f.rightVars ++ [p.1]) && (decide (f.rightVars.length ≤ 1) ||
          decide (∀ u ∈ f.rightVars.head?, (B.states u).length = (B.states p.1).length)))
  | .error _ => false

theorem pgmpyCheck_col (vt : VType) : pgmpyCheck vt gCollider rowsCollider = true := by
  cases vt <;> decide +kernel

/-- The hypotheses can be met: two parents with 2 and 3 states -/
example (vt vt' : VType) : ∃ (m : DagModel (Factor (IQ vt)) Char Char) (B : BN Char Char ℚ), Represents m B ∧ B.Valid ∧
    B.parents 'C' = ['A', 'B'] ∧ ∃ n m' nodes, toPgmpyBNet m = .ok n ∧ toBCauseBNet (IQ vt') n = .ok m' ∧ nodes.Perm B.nodes ∧
      Represents m' (B.reorder nodes) := by
  obtain ⟨m, h1, h2, h3, h4, h5, h6⟩ := netOf_spec (by decide) (netCheck_col vt)
  have hc := pgmpyCheck_col vt
  rw [pgmpyCheck, h1] at hc
  simp only [Bool.and_eq_true, decide_eq_true_eq, List.all_eq_true, Bool.or_eq_true, List.any_eq_true] at hc
  refine ⟨m, BN.ofModel (IQ vt) m, h3, h4, ?_, C75_round_trip_partial vt vt' h4 h3 hc.1 fun v f hf => ?_⟩
  · show m.graph.pred 'C' = _
    rw [h2]; decide
  · simpa only [Bool.and_eq_true, decide_eq_true_eq, Bool.or_eq_true] using hc.2 _ hf

/-- The matrix of the example -/
example : ∀ vt, (do
    let f ← Factor.make (IQ vt) [('A', ['a', 'b']), ('B', ['c', 'd', 'e']), ('C', ['a', 'b'])]
      [q (1/2), q (1/2), q (1/3), q (2/3), q 0, q 1, q (1/4), q (3/4), q (1/5), q (4/5), q 1, q 0] (some ['C']) none
    let t ← toTabularArgs f
    return (t.values, t.evidence, t.evidenceCard)) =
    (.ok (⟨[2, 6], [q (1/2), q (1/3), q 0, q (1/4), q (1/5), q 1, q (1/2), q (2/3), q 1, q (3/4), q (4/5), q 0]⟩, ['A', 'B'], [2, 3]) : Py _) := by
  intro vt; cases vt <;> decide +kernel

/-- The hypotheses of `C65_raises` are met when `B` (three states) comes first. -/
example : ∀ vt, (do
    let f ← Factor.make (IQ vt) [('B', ['c', 'd', 'e']), ('A', ['a', 'b']), ('C', ['a', 'b'])]
      (List.replicate 12 (q (1/2))) (some ['C']) none
    let t ← toTabularArgs f
    return (t.values, t.evidence, t.evidenceCard)) = (.error .valueError : Py _) := by
  intro vt; cases vt <;> decide +kernel

/-- **C65** a factor whose variable does not come last: `P(B|A)` with `B` first. The matrix handed over is the transposed one, and
with as many states in both pgmpy accepts it: column `A = a` of what it gets is not `(1, 0)`. -/
theorem C65_order : ∀ vt, (do
    let f ← Factor.make (IQ vt) [('B', ['a', 'b']), ('A', ['a', 'b'])] [q 1, q (1/4), q 0, q (3/4)] (some ['B']) none
    let x ← f.getValue [('B', 'a'), ('A', 'b')]
    let c ← toTabularCPT f
    let y ← c.getValue [('B', 'a'), ('A', 'b')]
    return (x, y)) = (.ok (q (1/4), q 0) : Py _) := by
  intro vt; cases vt <;> decide +kernel

/-- **C75** a variable without arcs is exported but lost on the way back: the graph is made from the arcs, and then there is no
place for its factor. -/
theorem C75_isolated : ∀ vt, (do
    let m ← netOf vt ⟨['A', 'B', 'C'], [('A', 'B')]⟩ [([('A', ['a', 'b'])], [q (1/2), q (1/2)], 'A'),
      ([('A', ['a', 'b']), ('B', ['a', 'b'])], [q 1, q 0, q (1/4), q (3/4)], 'B'), ([('C', ['a', 'b'])], [q (1/2), q (1/2)], 'C')]
    let n ← toPgmpyBNet m
    let m' ← toBCauseBNet (IQ .numpy) n
    return m'.graph.nodes) = (.error .networkx : Py _) := by
  intro vt; cases vt <;> decide +kernel

/-- **C75** an unset factor is met as `None`: the export stops there with the exception of a missing attribute, if the factors
before it could be exported. -/
theorem C75_unset {α : Type} [Inhabited α] [DecidableEq α] {V S : Type} [DecidableEq V] [DecidableEq S] {I : StoreImpl V S α} {m : DagModel (Factor I) V S} {pre post : List (V × Option (Factor I))} {v : V}
    (hm : m.factors = pre ++ (v, none) :: post) (hp : ∀ p ∈ pre, ∃ f c, p.2 = some f ∧ toTabularCPT f = .ok c) :
    toPgmpyBNet m = .error .attributeError := by
  have h : ∀ l : List (V × Option (Factor I)), (∀ p ∈ l, ∃ f c, p.2 = some f ∧ toTabularCPT f = .ok c) →
      (l ++ (v, none) :: post).mapM exportOne = .error .attributeError := by
    intro l
    induction l with
    | nil => intro _; rw [List.nil_append, List.mapM_cons]; rfl
    | cons p l ih =>
      intro hl
      obtain ⟨f, c, h1, h2⟩ := hl p (by simp)
      have h3 : exportOne p = .ok c := by rw [exportOne, h1]; exact h2
      rw [List.cons_append, List.mapM_cons, h3, ih fun x hx => hl x (List.mem_cons_of_mem _ hx)]
      rfl
  rw [toPgmpyBNet, hm, h pre hp]
  rfl

/-- An unset factor after one that is exported -/
example : ∀ vt, (do
    let m ← netOf vt ⟨['A', 'B'], [('A', 'B')]⟩ [([('A', ['a', 'b'])], [q (1/2), q (1/2)], 'A')]
    let n ← toPgmpyBNet m
    return (Dict.keys m.factors, n.nodes)) = (.error .attributeError : Py _) := by
  intro vt; cases vt <;> decide +kernel

end Verif.Props
