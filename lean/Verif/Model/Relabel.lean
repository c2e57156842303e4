import Verif.Model.Intervene
import Verif.Model.Denote

/-!
# Renaming the variables of a model: helper lemmas
-/

set_option linter.unusedSectionVars false
set_option linter.unusedSimpArgs false

namespace Verif

variable {V S K : Type} [DecidableEq V] [DecidableEq S] [Inhabited S] [Field K] [LinearOrder K] {vt : VType}

local notation "II" => (storeOf vt : StoreImpl V S (Fl K))
local notation "LL" => (labelStoreOf vt : LabelStore V S)

/-! ### Networks -/

namespace BN

/-- `ρ` keeps the nodes apart. -/
def InjOn (B : BN V S K) (ρ : V → V) : Prop := ∀ v ∈ B.nodes, ∀ w ∈ B.nodes, ρ v = ρ w → v = w

theorem unname_apply {B : BN V S K} {ρ : V → V} (h : B.InjOn ρ) {v : V} (hv : v ∈ B.nodes) : B.unname ρ (ρ v) = v := by
  rw [unname]
  cases hf : B.nodes.find? (fun u => ρ u = ρ v) with
  | none =>
    have := List.find?_eq_none.1 hf v hv
    simp at this
  | some u =>
    have h1 := List.find?_some hf
    have h2 := List.mem_of_find?_eq_some hf
    exact h u h2 v hv (by simpa using h1)

theorem relabel_parents {B : BN V S K} {ρ : V → V} (h : B.InjOn ρ) {v : V} (hv : v ∈ B.nodes) :
    (B.relabel ρ).parents (ρ v) = (B.parents v).map ρ := by
  simp only [relabel, unname_apply h hv]

theorem relabel_states {B : BN V S K} {ρ : V → V} (h : B.InjOn ρ) {v : V} (hv : v ∈ B.nodes) :
    (B.relabel ρ).states (ρ v) = B.states v := by
  simp only [relabel, unname_apply h hv]

theorem relabel_table {B : BN V S K} {ρ : V → V} (h : B.InjOn ρ) {v : V} (hv : v ∈ B.nodes) (a : V → S) :
    (B.relabel ρ).table (ρ v) a = B.table v fun w => a (ρ w) := by
  simp only [relabel, unname_apply h hv]

theorem relabel_joint {B : BN V S K} {ρ : V → V} (h : B.InjOn ρ) (a : V → S) : (B.relabel ρ).joint a = B.joint fun w => a (ρ w) := by
  show ((B.nodes.map ρ).map fun w => (B.relabel ρ).table w a).prod = _
  rw [List.map_map, joint]
  congr 1
  exact List.map_congr_left fun v hv => relabel_table h hv a

theorem relabel_inStates {B : BN V S K} {ρ : V → V} (h : B.InjOn ρ) (a : V → S) :
    (B.relabel ρ).InStates a ↔ B.InStates fun v => a (ρ v) := by
  constructor
  · intro ha v hv
    have := ha (ρ v) (List.mem_map_of_mem hv)
    rwa [relabel_states h hv] at this
  · intro ha w hw
    obtain ⟨v, hv, rfl⟩ := List.mem_map.1 hw
    rw [relabel_states h hv]; exact ha v hv

theorem Valid.relabel {B : BN V S K} (hB : B.Valid) {ρ : V → V} (h : B.InjOn ρ) : (B.relabel ρ).Valid where
  nodes := List.Nodup.map_on h hB.nodes
  parents := by
    intro w hw p hp
    obtain ⟨v, hv, rfl⟩ := List.mem_map.1 hw
    rw [relabel_parents h hv] at hp
    obtain ⟨u, hu, rfl⟩ := List.mem_map.1 hp
    exact List.mem_map_of_mem (hB.parents v hv u hu)
  acyclic := by
    intro w hw
    refine hB.acyclic (B.unname ρ w) (Relation.TransGen.lift (B.unname ρ) (fun u w huw => ?_) _ _ hw)
    obtain ⟨h1, h2⟩ := huw
    obtain ⟨v, hv, rfl⟩ := List.mem_map.1 h1
    rw [relabel_parents h hv] at h2
    obtain ⟨x, hx, rfl⟩ := List.mem_map.1 h2
    show B.unname ρ (ρ v) ∈ B.nodes ∧ B.unname ρ (ρ x) ∈ B.parents (B.unname ρ (ρ v))
    rw [unname_apply h hv, unname_apply h (hB.parents v hv x hx)]
    exact ⟨hv, hx⟩
  nodupStates := by
    intro w hw
    obtain ⟨v, hv, rfl⟩ := List.mem_map.1 hw
    rw [relabel_states h hv]; exact hB.nodupStates v hv
  nonempty := by
    intro w hw
    obtain ⟨v, hv, rfl⟩ := List.mem_map.1 hw
    rw [relabel_states h hv]; exact hB.nonempty v hv
  scope := by
    intro w hw a b hab
    obtain ⟨v, hv, rfl⟩ := List.mem_map.1 hw
    rw [relabel_table h hv, relabel_table h hv]
    rw [relabel_parents h hv] at hab
    refine hB.scope v hv _ _ fun u hu => hab _ ?_
    rcases List.mem_cons.1 hu with rfl | hu
    · exact List.mem_cons_self
    · exact List.mem_cons_of_mem _ (List.mem_map_of_mem hu)

theorem Normalised.relabel {B : BN V S K} (hB : B.Valid) (hn : B.Normalised) {ρ : V → V} (h : B.InjOn ρ) : (B.relabel ρ).Normalised := by
  intro w hw a ha
  obtain ⟨v, hv, rfl⟩ := List.mem_map.1 hw
  rw [relabel_states h hv]
  have := hn v hv (fun v => a (ρ v)) ((relabel_inStates h a).1 ha)
  rw [← this]
  congr 1
  refine List.map_congr_left fun s _ => ?_
  rw [relabel_table h hv]
  refine hB.scope v hv _ _ fun u hu => ?_
  have hun : u ∈ B.nodes := by
    rcases List.mem_cons.1 hu with rfl | hu
    · exact hv
    · exact hB.parents v hv u hu
  by_cases e : u = v
  · subst e; simp [upd]
  · have : ρ u ≠ ρ v := fun hc => e (h u hun v hv hc)
    simp [upd, e, this]

end BN

/-! ### Factors -/

theorem DetFactor.rename_ok {L : LabelStore V S} (hL : L.Lawful) {f : DetFactor L} (hf : f.WF) (m : List (V × V))
    (hinj : ∀ v ∈ f.vars, ∀ w ∈ f.vars, Factor.renameOne m v = Factor.renameOne m w → v = w) :
    ∃ r, f.renameVars m = .ok r ∧ r.WF ∧ r.dom = f.dom.map (fun p => (Factor.renameOne m p.1, p.2)) ∧
      r.leftVars = f.leftVars.map (Factor.renameOne m) ∧ r.rightVars = f.rightVars.map (Factor.renameOne m) ∧
      ∀ a, InDom f.rightDomain (fun v => a (Factor.renameOne m v)) → r.fn a = f.fn fun v => a (Factor.renameOne m v) := by
  let ρ := Factor.renameOne m
  let d' : Dom V S := f.dom.map fun p => (ρ p.1, p.2)
  obtain ⟨x, hx⟩ := hf.left
  have hxv : x ∈ f.vars ∧ x ∉ f.rightVars := by
    have : x ∈ f.leftVars := by rw [hx]; simp
    simpa [DetFactor.leftVars] using this
  have hk' : Dict.keys d' = f.vars.map ρ := by simp [d', Dict.keys, DetFactor.vars, Function.comp_def]
  have hd' : DomOk d' := by
    refine ⟨?_, ?_, ?_⟩
    · rw [hk']; exact List.Nodup.map_on hinj hf.dom.keys
    · intro p hp
      obtain ⟨q, hq, rfl⟩ := List.mem_map.1 hp
      exact hf.dom.states q hq
    · intro p hp
      obtain ⟨q, hq, rfl⟩ := List.mem_map.1 hp
      exact hf.dom.nonempty q hq
  have hmem : ∀ v ∈ f.vars, ρ v ∈ f.rightVars.map ρ ↔ v ∈ f.rightVars := by
    intro v hv
    refine ⟨fun h => ?_, fun h => List.mem_map_of_mem h⟩
    obtain ⟨w, hw, e⟩ := List.mem_map.1 h
    rw [← hinj w (hf.right w hw) v hv e]; exact hw
  have hleft : ((Dict.keys d').filter fun v => v ∉ f.rightVars.map ρ) = f.leftVars.map ρ := by
    rw [hk', List.filter_map, DetFactor.leftVars]
    congr 1
    refine List.filter_congr fun v hv => ?_
    simp only [Function.comp, hmem v hv]
  have hrd : (d'.filter fun p => p.1 ∈ f.rightVars.map ρ) = f.rightDomain.map fun p => (ρ p.1, p.2) := by
    simp only [d', List.filter_map, DetFactor.rightDomain]
    congr 1
    refine List.filter_congr fun p hp => ?_
    simp only [Function.comp, hmem p.1 (Dict.mem_keys_of_mem hp)]
  have hcards : cards (f.rightDomain.map fun p => (ρ p.1, p.2)) = cards f.rightDomain := by simp [cards, Function.comp_def]
  have hset : Factor.setVariables (Dict.keys d') (some (f.leftVars.map ρ)) (some (f.rightVars.map ρ))
      = .ok (f.rightVars.map ρ) := by
    rw [Factor.setVariables, if_pos]
    refine ⟨?_, ?_, ?_⟩
    · intro v hv
      rw [hk', List.mem_map] at hv
      obtain ⟨w, hw, rfl⟩ := hv
      by_cases hr : w ∈ f.rightVars
      · exact Or.inr (List.mem_map_of_mem hr)
      · exact Or.inl (List.mem_map_of_mem (List.mem_filter.2 ⟨hw, by simpa using hr⟩))
    · intro v hv
      rw [hk']
      rcases List.mem_append.1 hv with h | h
      · obtain ⟨w, hw, rfl⟩ := List.mem_map.1 h
        exact List.mem_map_of_mem (List.mem_filter.1 hw).1
      · obtain ⟨w, hw, rfl⟩ := List.mem_map.1 h
        exact List.mem_map_of_mem (hf.right w hw)
    · intro v hv hl
      obtain ⟨w, hw, rfl⟩ := List.mem_map.1 hv
      obtain ⟨u, hu, e⟩ := List.mem_map.1 hl
      have := hinj u (List.mem_filter.1 hu).1 w (hf.right w hw) e
      subst this
      simpa [hw] using (List.mem_filter.1 hu).2
  have hvals : f.valuesList = .ok ((assignmentSpace f.rightDomain).map fun o => f.fn (asg o)) := by
    rw [DetFactor.valuesList, hf.storeDom]
    refine mapM_ok fun o ho => ?_
    have hro := mem_assignmentSpace_fullObs (DetFactor.rightDomain_ok hf).keys ho
    exact DetFactor.getValue_full hL hf hro
  obtain ⟨r, h1, h2, h3, h4, h5, h6⟩ := DetFactor.make_ok hL (d := d') (left := some (f.leftVars.map ρ))
    (right := some (f.rightVars.map ρ)) (x := ρ x)
    (values := (assignmentSpace f.rightDomain).map fun o => f.fn (asg o)) hd' hset
    (by
      intro v hv
      obtain ⟨w, hw, rfl⟩ := List.mem_map.1 hv
      rw [hk']; exact List.mem_map_of_mem (hf.right w hw))
    (by rw [hleft, hx]; rfl)
    (by rw [hrd, hcards]; simp [assignmentSpace, stateSpace, length_product, cards, Function.comp_def])
  refine ⟨r, ?_, h2, h3, by rw [h5, hx]; rfl, h4, fun a ha => ?_⟩
  · rw [DetFactor.renameVars, hvals, py_ok_bind]
    exact h1
  · rw [hrd] at h6
    have hin : InDom (f.rightDomain.map fun p => (ρ p.1, p.2)) a := by
      intro p hp
      obtain ⟨q, hq, rfl⟩ := List.mem_map.1 hp
      exact ha q hq
    rw [h6 a hin, hcards]
    have hco : coords (f.rightDomain.map fun p => (ρ p.1, p.2)) a = coords f.rightDomain fun v => a (ρ v) := by
      simp only [coords, List.map_map, Function.comp_def]
    rw [hco, List.getD_eq_getElem?_getD, List.getElem?_map, assignmentSpace_getElem? ha]
    simp only [Option.map_some, Option.getD_some]
    refine DetFactor.fn_congr hL hf fun v hv => ?_
    refine (fullObs_of_states (DetFactor.rightDomain_ok hf).keys (a := fun v => a (ρ v)) fun p hp => ha p hp).2 v ?_
    rw [DetFactor.rightDomain, Dict.keys_filter_key f.dom (fun v => v ∈ f.rightVars), List.mem_filter]
    exact ⟨hf.right v hv, by simpa using hv⟩

/-- A renamed table is a table of the renamed network. -/
theorem AnyTable.rename {B : BN V S K} (hB : B.Valid) {v : V} (hv : v ∈ B.nodes) {f : AnyFactor II LL} (h : AnyTable B v f)
    {m : List (V × V)} (hinj : B.InjOn (Factor.renameOne m)) :
    ∃ f', f.renameVars m = .ok f' ∧ AnyTable (B.relabel (Factor.renameOne m)) (Factor.renameOne m v) f' ∧ f'.isDet = f.isDet := by
  let ρ := Factor.renameOne m
  have hsub : ∀ w, w = v ∨ w ∈ B.parents v → w ∈ B.nodes := by
    rintro w (rfl | hw)
    · exact hv
    · exact hB.parents v hv w hw
  -- the observation under the old names
  have hold : ∀ (d : Dom V S), (Dict.keys d).Nodup → (∀ w, w ∈ Dict.keys d ↔ w = v ∨ w ∈ B.parents v) → ∀ obs',
      FullObs (d.map fun p => (ρ p.1, p.2)) obs' →
      FullObs d (d.map fun p => (p.1, asg obs' (ρ p.1))) ∧
      (∀ w ∈ Dict.keys d, asg (d.map fun p => (p.1, asg obs' (ρ p.1))) w = asg obs' (ρ w)) ∧
      (∀ w ∈ Dict.keys d, Dict.get? obs' (ρ w) = Dict.get? (d.map fun p => (p.1, asg obs' (ρ p.1))) w) ∧
      B.table v (asg (d.map fun p => (p.1, asg obs' (ρ p.1)))) = B.table v fun w => asg obs' (ρ w) := by
    intro d hk hvars obs' ho
    obtain ⟨a1, a2⟩ := fullObs_of_states hk (a := fun w => asg obs' (ρ w)) fun p hp => ho.inDom (ρ p.1, p.2) (List.mem_map_of_mem hp)
    refine ⟨a1, a2, fun w hw => ?_, hB.scope v hv _ _ fun w hw => a2 w ((hvars w).2 (List.mem_cons.1 hw))⟩
    have e1 := a1.covers w hw
    rw [e1, a2 w hw]
    refine ho.covers (ρ w) ?_
    obtain ⟨st, hst⟩ := Dict.mem_keys.1 hw
    exact Dict.mem_keys_of_mem (List.mem_map.2 ⟨(w, st), hst, rfl⟩)
  have hdom : ∀ (d : Dom V S), (∀ w, w ∈ Dict.keys d ↔ w = v ∨ w ∈ B.parents v) → (∀ p ∈ d, p.2 = B.states p.1) →
      ∀ p ∈ d.map (fun p => (ρ p.1, p.2)), p.2 = (B.relabel ρ).states p.1 := by
    intro d hvars hd p hp
    obtain ⟨q, hq, rfl⟩ := List.mem_map.1 hp
    rw [BN.relabel_states hinj (hsub _ ((hvars _).1 (Dict.mem_keys_of_mem hq)))]
    exact hd q hq
  have hpar : (B.relabel ρ).parents (ρ v) = (B.parents v).map ρ := BN.relabel_parents hinj hv
  have hvs : ∀ (d : Dom V S), (∀ w, w ∈ Dict.keys d ↔ w = v ∨ w ∈ B.parents v) →
      ∀ w, w ∈ Dict.keys (d.map fun p => (ρ p.1, p.2)) ↔ w = ρ v ∨ w ∈ (B.relabel ρ).parents (ρ v) := by
    intro d hvars w
    have : Dict.keys (d.map fun p => (ρ p.1, p.2)) = (Dict.keys d).map ρ := by simp [Dict.keys, Function.comp_def]
    rw [this, hpar, List.mem_map, List.mem_map]
    constructor
    · rintro ⟨u, hu, rfl⟩
      rcases (hvars u).1 hu with rfl | hu
      · exact .inl rfl
      · exact .inr ⟨u, hu, rfl⟩
    · rintro (rfl | ⟨u, hu, rfl⟩)
      · exact ⟨v, (hvars v).2 (.inl rfl), rfl⟩
      · exact ⟨u, (hvars u).2 (.inr hu), rfl⟩
  have hinj' : ∀ (d : Dom V S), (∀ w, w ∈ Dict.keys d ↔ w = v ∨ w ∈ B.parents v) →
      ∀ u ∈ Dict.keys d, ∀ w ∈ Dict.keys d, ρ u = ρ w → u = w := fun d hvars u hu w hw e =>
    hinj u (hsub _ ((hvars u).1 hu)) w (hsub _ ((hvars w).1 hw)) e
  cases f with
  | multi g =>
    have h : IsTable B v g := h
    have hk := (Factor.WF.domOk (storeOf_lawful vt) h.wf).keys
    obtain ⟨r, r1, r2, r3, r4, r5, r6, r7⟩ := Props.C14_rename vt h.wf
      (fun w hw => (h.vars w).2 (.inr ((h.right w).1 hw))) m (hinj' g.dom h.vars)
    refine ⟨.multi r, by rw [AnyFactor.renameVars, r1]; rfl, ⟨r2, fun w => ?_, fun w => ?_, fun w => ?_, ?_, fun obs' ho => ?_⟩, rfl⟩
    · rw [r5, h.left_eq]; simp [ρ]
    · rw [r6, hpar, List.mem_map, List.mem_map]
      exact ⟨fun ⟨u, hu, e⟩ => ⟨u, (h.right u).1 hu, e⟩, fun ⟨u, hu, e⟩ => ⟨u, (h.right u).2 hu, e⟩⟩
    · rw [Factor.vars, r3]; exact hvs g.dom h.vars w
    · rw [r3]; exact hdom g.dom h.vars h.dom
    · rw [r3] at ho
      obtain ⟨o1, o2, o3, o4⟩ := hold g.dom hk h.vars obs' ho
      obtain ⟨x, x1, x2⟩ := r7 _ obs' o1 o3
      rw [x2, ← x1, h.value _ o1, o4, BN.relabel_table hinj hv]
  | det g =>
    have h : DetTable B v g := h
    have hL := labelStoreOf_lawful (V := V) (S := S) vt
    obtain ⟨r, r1, r2, r3, r4, r5, r6⟩ := DetFactor.rename_ok hL h.wf m (hinj' g.dom h.vars)
    have rl : r.leftVars = [ρ v] := by rw [r4, h.left]; rfl
    refine ⟨.det r, by rw [AnyFactor.renameVars, r1]; rfl, ⟨r2, rl, fun w => ?_, fun w => ?_, ?_, fun obs' ho => ?_⟩, rfl⟩
    · rw [r5, hpar, List.mem_map, List.mem_map]
      exact ⟨fun ⟨u, hu, e⟩ => ⟨u, (h.right u).1 hu, e⟩, fun ⟨u, hu, e⟩ => ⟨u, (h.right u).2 hu, e⟩⟩
    · rw [DetFactor.vars, r3]; exact hvs g.dom h.vars w
    · rw [r3]; exact hdom g.dom h.vars h.dom
    · have ho' := ho
      rw [r3] at ho'
      obtain ⟨o1, o2, o3, o4⟩ := hold g.dom h.wf.dom.keys h.vars obs' ho'
      have hv' : v ∈ Dict.keys g.dom := (h.vars v).2 (.inl rfl)
      obtain ⟨b, b1, b2⟩ := h.value _ o1
      refine ⟨b, ?_, by rw [BN.relabel_table hinj hv, ← o4]; exact b2⟩
      rw [DetFactor.eval_ok hL h.wf o1 h.left] at b1
      injection b1 with b1
      rw [DetFactor.eval_ok hL r2 ho rl, ← b1]
      have e1 : r.fn (asg obs') = g.fn (asg (g.dom.map fun p => (p.1, asg obs' (ρ p.1)))) := by
        rw [r6 (asg obs') fun p hp => ho'.inDom (ρ p.1, p.2) (List.mem_map_of_mem (List.mem_filter.1 hp).1)]
        exact (DetFactor.fn_congr hL h.wf fun w hw => o2 w (h.wf.right w hw)).symm
      rw [e1, o2 v hv']

/-! ### Graphs -/

theorem dedup_reverse_of_nodup {X : Type} [DecidableEq X] {l : List X} (h : l.Nodup) : l.reverse.dedup.reverse = l := by
  rw [List.dedup_eq_self.2 (List.nodup_reverse.2 h), List.reverse_reverse]

theorem DiGraph.relabel_eq {g : DiGraph V} (hg : g.WF) {ρ : V → V} (h : ∀ v ∈ g.nodes, ∀ w ∈ g.nodes, ρ v = ρ w → v = w) :
    g.relabel ρ = ⟨g.nodes.map ρ, g.edges.map fun e => (ρ e.1, ρ e.2)⟩ := by
  rw [DiGraph.relabel, dedup_reverse_of_nodup (List.Nodup.map_on h hg.nodes), dedup_reverse_of_nodup]
  refine List.Nodup.map_on (fun e he e' he' hee => ?_) hg.edges
  injection hee with h1 h2
  exact Prod.ext (h _ (hg.ends e he).1 _ (hg.ends e' he').1 h1) (h _ (hg.ends e he).2 _ (hg.ends e' he').2 h2)

theorem DiGraph.WF.relabel {g : DiGraph V} (hg : g.WF) {ρ : V → V} (h : ∀ v ∈ g.nodes, ∀ w ∈ g.nodes, ρ v = ρ w → v = w) :
    (⟨g.nodes.map ρ, g.edges.map fun e => (ρ e.1, ρ e.2)⟩ : DiGraph V).WF where
  nodes := List.Nodup.map_on h hg.nodes
  edges := by
    refine List.Nodup.map_on (fun e he e' he' hee => ?_) hg.edges
    injection hee with h1 h2
    exact Prod.ext (h _ (hg.ends e he).1 _ (hg.ends e' he').1 h1) (h _ (hg.ends e he).2 _ (hg.ends e' he').2 h2)
  ends := by
    intro e he
    obtain ⟨e', he', rfl⟩ := List.mem_map.1 he
    exact ⟨List.mem_map_of_mem (hg.ends e' he').1, List.mem_map_of_mem (hg.ends e' he').2⟩

theorem relabel_parents_iff {B : BN V S K} {g : DiGraph V} (hg : g.WF) (hn : g.nodes = B.nodes)
    (hp : ∀ v ∈ B.nodes, ∀ p, p ∈ B.parents v ↔ (p, v) ∈ g.edges) {ρ : V → V} (hinj : B.InjOn ρ) :
    ∀ w ∈ (B.relabel ρ).nodes, ∀ p, p ∈ (B.relabel ρ).parents w ↔ (p, w) ∈ g.edges.map fun e => (ρ e.1, ρ e.2) := by
  intro w hw p
  obtain ⟨v, hv, rfl⟩ := List.mem_map.1 hw
  rw [BN.relabel_parents hinj hv, List.mem_map, List.mem_map]
  constructor
  · rintro ⟨u, hu, rfl⟩
    exact ⟨(u, v), (hp v hv u).1 hu, rfl⟩
  · rintro ⟨⟨u, w⟩, hu, e⟩
    injection e with e1 e2
    have hw : w ∈ g.nodes := (hg.ends _ hu).2
    have : w = v := hinj w (by rw [← hn]; exact hw) v hv e2
    subst this
    exact ⟨u, (hp w hv u).2 hu, e1⟩

/-! ### Models -/

namespace SCM

/-- No deterministic factor. -/
def Multi {I : StoreImpl V S (Fl K)} {L : LabelStore V S} (m : SCM I L) : Prop :=
  ∀ v f, Dict.get? m.base.factors v = some (some f) → f.isDet = false

theorem prep_multi {endo : List V} {cast check : Bool} {v : V} {f : AnyFactor II LL} (h : f.isDet = false) :
    (prep endo cast check v f).isDet = false := by
  cases f with
  | det g => cases h
  | multi g =>
    rw [prep, prepare]
    split
    · rename_i f' he
      split at he
      · cases hg : g.isDegenerate with
        | error e => rw [hg] at he; cases he
        | ok b =>
          rw [hg] at he
          cases b with
          | true => injection he with he; injection he with he; rw [← he]; rfl
          | false => cases he
      · injection he with he; injection he with he; rw [← he]; rfl
    · rfl

theorem multi_after {g : DiGraph V} {D : V → List S} {check : Bool} {l : List (V × AnyFactor II LL)} {endo : List V} {cast : Bool}
    (h : ∀ p ∈ l, p.2.isDet = false) : (⟨DagModel.after g D check l, endo, cast⟩ : SCM II LL).Multi := by
  intro v f hf
  have hf : Dict.get? (g.nodes.map fun v => (v, Dict.get? l v)) v = some (some f) := hf
  rw [Dict.get?_map] at hf
  split at hf
  · injection hf with hf
    exact h (v, f) (Dict.mem_of_get? hf)
  · cases hf

theorem multi_built {g : DiGraph V} {D : V → List S} {check cast : Bool} {l : List (V × AnyFactor II LL)} {endo : List V}
    (h : ∀ p ∈ l, p.2.isDet = false) :
    (⟨DagModel.after g D check (l.map fun p => (p.1, prep endo cast check p.1 p.2)), endo, cast⟩ : SCM II LL).Multi :=
  multi_after fun p' hp' => by
    obtain ⟨p, hp, rfl⟩ := List.mem_map.1 hp'
    exact prep_multi (h p hp)

theorem built_det {g : DiGraph V} {D : V → List S} {check cast : Bool} {l : List (V × AnyFactor II LL)} {endo : List V} {w : V}
    (h : ∀ p ∈ l, p.1 = w → p.2.isDet = false) {f : AnyFactor II LL}
    (hf : Dict.get? (DagModel.after g D check (l.map fun p => (p.1, prep endo cast check p.1 p.2))).factors w = some (some f)) :
    f.isDet = false := by
  have hf : Dict.get? (g.nodes.map fun v => (v, Dict.get? (l.map fun p => (p.1, prep endo cast check p.1 p.2)) v)) w = some (some f) := hf
  rw [Dict.get?_map] at hf
  split at hf
  · injection hf with hf
    obtain ⟨p, hp, he⟩ := List.mem_map.1 (Dict.mem_of_get? hf)
    injection he with h1 h2
    rw [← h2]
    exact prep_multi (h p hp h1)
  · cases hf

theorem mapM_get_ok {mapping : List (V × V)} {l : List V} (h : ∀ v ∈ l, v ∈ Dict.keys mapping) :
    l.mapM (Dict.get mapping) = .ok (l.map (Factor.renameOne mapping)) := by
  induction l with
  | nil => rfl
  | cons x l ih =>
    obtain ⟨s, hs⟩ := Option.isSome_iff_exists.1 (Dict.get?_isSome.2 (h x List.mem_cons_self))
    rw [List.mapM_cons, ih fun v hv => h v (List.mem_cons_of_mem _ hv), Dict.get, hs, List.map_cons, Factor.renameOne, hs]
    rfl

/-- `rename_vars` -/
theorem Rep.renameVarsDet {m : SCM II LL} {B : BN V S K} (h : m.Rep B) (hB : B.Valid) {mapping : List (V × V)}
    (hinj : B.InjOn (Factor.renameOne mapping)) (hend : ∀ v ∈ m.endogenous, v ∈ Dict.keys mapping ∧ v ∈ B.nodes) :
    ∃ m', m.renameVars mapping = .ok m' ∧ m'.Rep (B.relabel (Factor.renameOne mapping)) ∧
      m'.base.graph = ⟨m.base.graph.nodes.map (Factor.renameOne mapping),
        m.base.graph.edges.map fun e => (Factor.renameOne mapping e.1, Factor.renameOne mapping e.2)⟩ ∧
      m'.endogenous = m.endogenous.map (Factor.renameOne mapping) ∧ m'.cast = m.cast ∧ (m.Multi → m'.Multi) ∧
      ∀ v ∈ B.nodes, (∀ f, Dict.get? m.base.factors v = some (some f) → f.isDet = false) →
        ∀ f, Dict.get? m'.base.factors (Factor.renameOne mapping v) = some (some f) → f.isDet = false := by
  obtain ⟨l, hl, hk, ht⟩ := h.facs hB
  have hmem : ∀ p ∈ l, p.1 ∈ B.nodes := fun p hp => by rw [← hk]; exact Dict.mem_keys_of_mem hp
  let ρ := Factor.renameOne mapping
  -- the renamed factors
  have hren : ∀ p ∈ l, ∃ f', p.2.renameVars mapping = .ok f' ∧ AnyTable (B.relabel ρ) (ρ p.1) f' ∧ f'.isDet = p.2.isDet :=
    fun p hp => (ht p hp).rename hB (hmem p hp) hinj
  let ren : V × AnyFactor II LL → AnyFactor II LL := fun p => match p.2.renameVars mapping with
    | .ok r => r
    | .error _ => p.2
  have hren' : ∀ p ∈ l, p.2.renameVars mapping = .ok (ren p) ∧ AnyTable (B.relabel ρ) (ρ p.1) (ren p) ∧ (ren p).isDet = p.2.isDet := by
    intro p hp
    obtain ⟨f', e1, e2, e3⟩ := hren p hp
    have : ren p = f' := by simp only [ren, e1]
    rw [this]; exact ⟨e1, e2, e3⟩
  have hinjg : ∀ v ∈ m.base.graph.nodes, ∀ w ∈ m.base.graph.nodes, ρ v = ρ w → v = w := by rw [h.nodes]; exact hinj
  have hfs : m.base.factors.mapM (renameSlot mapping) = .ok ((l.map fun p => (ρ p.1, ren p)).map fun p => some p.2) := by
    rw [hl, List.map_map]
    refine mapM_map_ok fun p hp => ?_
    simp only [renameSlot, (hren' p hp).1, py_ok_bind, Function.comp]
  let g' : DiGraph V := ⟨m.base.graph.nodes.map ρ, m.base.graph.edges.map fun e => (ρ e.1, ρ e.2)⟩
  have he : endoOr g' (some (m.endogenous.map ρ)) = m.endogenous.map ρ := endoOr_some fun hc => by
    show m.base.graph.edges.map _ = []
    rw [h.endo (List.map_eq_nil_iff.1 hc)]; rfl
  have hpar : ∀ w ∈ (B.relabel ρ).nodes, ∀ p, p ∈ (B.relabel ρ).parents w ↔ (p, w) ∈ g'.edges :=
    relabel_parents_iff h.wf h.nodes h.parents hinj
  obtain ⟨_, e2, e3⟩ := rep_built (B := B.relabel ρ) (hB.relabel hinj) (h.wf.relabel hinjg) (by show m.base.graph.nodes.map ρ = B.nodes.map ρ; rw [h.nodes])
    hpar (l := l.map fun p => (ρ p.1, ren p)) (by
      have : Dict.keys (l.map fun p => (ρ p.1, ren p)) = (Dict.keys l).map ρ := by simp [Dict.keys, Function.comp_def]
      rw [this, hk]; exact .refl _)
    (fun p' hp' => by obtain ⟨p, hp, rfl⟩ := List.mem_map.1 hp'; exact (hren' p hp).2.1)
    (some (m.endogenous.map ρ)) m.cast true (by
      rw [he]
      intro w hw hwn a ha
      obtain ⟨v, hv, rfl⟩ := List.mem_map.1 hw
      rw [BN.relabel_table hinj (hend v hv).2]
      exact h.equations v hv (hend v hv).2 _ ((BN.relabel_inStates hinj a).1 ha)) rfl
  refine ⟨_, ?_, e3, rfl, he, rfl, fun hmu => multi_built fun p' hp' => ?_, fun v hv hd f hf => built_det (fun p' hp' hpe => ?_) hf⟩
  · rw [SCM.renameVars, DiGraph.relabel_eq h.wf hinjg, hfs]
    simp only [py_ok_bind]
    rw [mapM_get_ok fun v hv => (hend v hv).1, py_ok_bind]
    exact e2
  · obtain ⟨p, hp, rfl⟩ := List.mem_map.1 hp'
    rw [(hren' p hp).2.2]
    exact hmu p.1 p.2 (h.get_of_mem hB hl hk hp)
  · obtain ⟨p, hp, rfl⟩ := List.mem_map.1 hp'
    rw [(hren' p hp).2.2]
    have := hinj p.1 (hmem p hp) v hv hpe
    subst this
    exact hd p.2 (h.get_of_mem hB hl hk hp)

theorem Rep.renameVars {m : SCM II LL} {B : BN V S K} (h : m.Rep B) (hB : B.Valid) {mapping : List (V × V)}
    (hinj : B.InjOn (Factor.renameOne mapping)) (hend : ∀ v ∈ m.endogenous, v ∈ Dict.keys mapping ∧ v ∈ B.nodes) :
    ∃ m', m.renameVars mapping = .ok m' ∧ m'.Rep (B.relabel (Factor.renameOne mapping)) ∧
      m'.base.graph = ⟨m.base.graph.nodes.map (Factor.renameOne mapping),
        m.base.graph.edges.map fun e => (Factor.renameOne mapping e.1, Factor.renameOne mapping e.2)⟩ ∧
      m'.endogenous = m.endogenous.map (Factor.renameOne mapping) ∧ m'.cast = m.cast ∧ (m.Multi → m'.Multi) := by
  obtain ⟨m', h1, h2, h3, h4, h5, h6, _⟩ := h.renameVarsDet hB hinj hend
  exact ⟨m', h1, h2, h3, h4, h5, h6⟩

end SCM

theorem DagModel.ofList_tables {B : BN V S K} (hB : B.Valid) {g : DiGraph V} (hg : g.WF) (hgn : g.nodes = B.nodes)
    (hp : ∀ v ∈ B.nodes, ∀ p, p ∈ B.parents v ↔ (p, v) ∈ g.edges) {l : List (V × AnyFactor II LL)}
    (hk : (Dict.keys l).Perm B.nodes) (ht : ∀ p ∈ l, AnyTable B p.1 p.2) (check : Bool) :
    DagModel.ofList g (l.map Prod.snd) check = .ok (DagModel.after g B.states check l) := by
  refine Eq.trans ?_ (DagModel.ofDict_tables hB hg hgn hp hk ht check)
  rw [DagModel.ofList, DagModel.ofDict]
  congr 1
  funext m
  rw [DagModel.setFactorsList, DagModel.setFactorsDict, List.foldlM_map, List.foldlM_map]
  have hmem : ∀ p ∈ l, p.1 ∈ B.nodes := fun p hp => hk.mem_iff.1 (Dict.mem_keys_of_mem hp)
  have : ∀ (l : List (V × AnyFactor II LL)) (m : DagModel (AnyFactor II LL) V S), (∀ p ∈ l, p.2.leftVars = [p.1]) →
      l.foldlM (fun m p => do let v ← DagModel.leftOf p.2; m.setFactor v (some p.2)) m =
        l.foldlM (fun m p => m.setFactor p.1 (some p.2)) m := by
    intro l
    induction l with
    | nil => intro _ _; rfl
    | cons p l ih =>
      intro m h
      rw [List.foldlM_cons, List.foldlM_cons, SCM.leftOf_fits (h p List.mem_cons_self), py_ok_bind]
      cases m.setFactor p.1 (some p.2) with
      | error e => rfl
      | ok m1 => exact ih m1 fun q hq => h q (List.mem_cons_of_mem _ hq)
  exact this l m fun p hp => (ht p hp).left_eq

/-- `rename_vars` of a Bayesian network -/
theorem Represents.renameVars {m : DagModel (AnyFactor II LL) V S} {B : BN V S K} (h : Represents (I := II) m B) (hB : B.Valid)
    {mapping : List (V × V)} (hinj : B.InjOn (Factor.renameOne mapping)) :
    ∃ m', m.renameVars mapping = .ok m' ∧ Represents (I := II) m' (B.relabel (Factor.renameOne mapping)) ∧
      m'.graph = ⟨m.graph.nodes.map (Factor.renameOne mapping),
        m.graph.edges.map fun e => (Factor.renameOne mapping e.1, Factor.renameOne mapping e.2)⟩ := by
  have hk0 : Dict.keys m.factors = B.nodes := h.keys.trans h.nodes
  obtain ⟨l, hl, hk, ht⟩ := SCM.facs_of (B := B) m.factors (by rw [hk0]; exact hB.nodes) (by
    rw [hk0]
    intro v hv
    obtain ⟨f, g, h1, h2, h3⟩ := h.table v hv
    cases f with
    | multi f => injection h2 with h2; subst h2; exact ⟨_, h1, h3⟩
    | det f => cases h2)
  rw [hk0] at hk
  have hmem : ∀ p ∈ l, p.1 ∈ B.nodes := fun p hp => by rw [← hk]; exact Dict.mem_keys_of_mem hp
  have hmulti : ∀ p ∈ l, p.2.isDet = false := by
    intro p hp
    obtain ⟨f, g, h1, h2, h3⟩ := h.table p.1 (hmem p hp)
    have : Dict.get? m.factors p.1 = some (some p.2) := by
      rw [hl]
      refine Dict.get?_of_mem ?_ (List.mem_map.2 ⟨p, hp, rfl⟩)
      rw [← hl, hk0]; exact hB.nodes
    rw [this] at h1
    injection h1 with h1; injection h1 with h1; subst h1
    cases hp2 : p.2 with
    | multi f => rfl
    | det f => rw [hp2] at h2; cases h2
  let ρ := Factor.renameOne mapping
  let ren : V × AnyFactor II LL → AnyFactor II LL := fun p => match p.2.renameVars mapping with
    | .ok r => r
    | .error _ => p.2
  have hren' : ∀ p ∈ l, p.2.renameVars mapping = .ok (ren p) ∧ AnyTable (B.relabel ρ) (ρ p.1) (ren p) ∧ (ren p).isDet = p.2.isDet := by
    intro p hp
    obtain ⟨f', e1, e2, e3⟩ := (ht p hp).rename hB (hmem p hp) hinj
    have : ren p = f' := by simp only [ren, e1]
    rw [this]; exact ⟨e1, e2, e3⟩
  have hinjg : ∀ v ∈ m.graph.nodes, ∀ w ∈ m.graph.nodes, ρ v = ρ w → v = w := by rw [h.nodes]; exact hinj
  let l' := l.map fun p => (ρ p.1, ren p)
  have hfs : m.factors.mapM (SCM.renameSlot mapping) = .ok (l'.map fun p => some p.2) := by
    rw [hl, List.map_map]
    refine SCM.mapM_map_ok fun p hp => ?_
    simp only [SCM.renameSlot, (hren' p hp).1, py_ok_bind, Function.comp]
  have hk' : Dict.keys l' = (B.relabel ρ).nodes := by
    have : Dict.keys l' = (Dict.keys l).map ρ := by simp [l', Dict.keys, Function.comp_def]
    rw [this, hk]; rfl
  let g' : DiGraph V := ⟨m.graph.nodes.map ρ, m.graph.edges.map fun e => (ρ e.1, ρ e.2)⟩
  have hgn : g'.nodes = (B.relabel ρ).nodes := by show m.graph.nodes.map ρ = B.nodes.map ρ; rw [h.nodes]
  have hpar : ∀ w ∈ (B.relabel ρ).nodes, ∀ p, p ∈ (B.relabel ρ).parents w ↔ (p, w) ∈ g'.edges :=
    relabel_parents_iff h.wf h.nodes h.parents hinj
  have ht' : ∀ p ∈ l', AnyTable (B.relabel ρ) p.1 p.2 := fun p' hp' => by
    obtain ⟨p, hp, rfl⟩ := List.mem_map.1 hp'; exact (hren' p hp).2.1
  have e2 := DagModel.ofList_tables (hB.relabel hinj) (h.wf.relabel hinjg) hgn hpar (by rw [hk']) ht' true
  refine ⟨DagModel.after g' (B.relabel ρ).states true l', ?_, ⟨h.wf.relabel hinjg, hgn, hpar, ?_, ?_⟩, rfl⟩
  · rw [DagModel.renameVars, DiGraph.relabel_eq h.wf hinjg, hfs]
    simp only [py_ok_bind]
    rw [List.filterMap_map]
    have : (List.filterMap (id ∘ fun p : V × AnyFactor II LL => some p.2) l') = l'.map Prod.snd := by
      rw [← List.filterMap_eq_map]; rfl
    rw [this]
    exact e2
  · show Dict.keys (g'.nodes.map fun v => (v, _)) = g'.nodes
    simp [Dict.keys, Function.comp_def]
  · intro w hw
    have hw' : w ∈ Dict.keys l' := by rw [hk']; exact hw
    obtain ⟨f, hf⟩ := Option.isSome_iff_exists.1 (Dict.get?_isSome.2 hw')
    have hfm := Dict.mem_of_get? hf
    have hd : f.isDet = false := by
      obtain ⟨p, hp, e⟩ := List.mem_map.1 hfm
      injection e with e1 e2
      rw [← e2, (hren' p hp).2.2, hmulti p hp]
    have hget : Dict.get? (g'.nodes.map fun v => (v, Dict.get? l' v)) w = some (some f) := by
      rw [Dict.get?_map, if_pos (by rw [hgn]; exact hw), hf]
    cases f with
    | multi f => exact ⟨_, f, hget, rfl, ht' _ hfm⟩
    | det f => cases hd

end Verif
