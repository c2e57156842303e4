import Verif.Model.QNet
import Verif.Model.SetAll
import Verif.Model.Intervene
import Verif.Inference.QueryLemmas

/-!
# Networks over the decomposition graph: helper lemmas
-/

set_option linter.unusedSectionVars false
set_option linter.unusedSimpArgs false

namespace Verif
open Relation

section
variable {V S K : Type} [DecidableEq V] [DecidableEq S] [Field K] [LinearOrder K] {I : StoreImpl V S (Fl K)}
  {L : LabelStore V S}

theorem VEObj.compile_model {F : Type} [VEFactor F I] (o : VEObj F I) (T : List V) (e : Option (Obs V S)) :
    (o.compile T e).1.model = o.model := by
  rw [VEObj.compile.eq_def]
  split
  · rfl
  · cases e with
    | none => rfl
    | some ev =>
      simp only
      split
      · rfl
      · split
        · rfl
        · split <;> rfl

theorem VEObj.queryCond_model {F : Type} [VEFactor F I] (o : VEObj F I) (ch : Choices V) (T C : List V) (e : Option (Obs V S)) :
    (o.queryCond ch T C e).1.model = o.model := by
  rw [VEObj.queryCond]
  split
  · rfl
  · have := o.compile_model (ch.setOrd (T ++ C)) (some (e.getD []))
    split
    · rename_i h; rw [h] at this; exact this
    · rename_i h; rw [h] at this; exact this

/-- The loop succeeds when each query does, whatever the state of the inference object. -/
theorem qLoop_ok {F : Type} [VEFactor F I] {ch : Choices V} {q : DiGraph V} {M : DagModel F V S} {P : V → Factor I → Prop}
    (vs : List V) (hn : ∀ v ∈ vs, v ∈ q.nodes)
    (h : ∀ v ∈ vs, ∀ o : VEObj F I, o.model = M → ∃ f, (o.queryCond ch [v] (q.pred v) none).2 = .ok f ∧ P v f)
    (o : VEObj F I) (ho : o.model = M) : ∃ l, qLoop ch q o vs = .ok l ∧ Dict.keys l = vs ∧ ∀ p ∈ l, P p.1 p.2 := by
  induction vs generalizing o with
  | nil => exact ⟨[], rfl, rfl, by simp⟩
  | cons v vs ih =>
    obtain ⟨f, h1, h2⟩ := h v List.mem_cons_self o ho
    obtain ⟨l, l1, l2, l3⟩ := ih (fun w hw => hn w (List.mem_cons_of_mem _ hw)) (fun w hw => h w (List.mem_cons_of_mem _ hw))
      (o.queryCond ch [v] (q.pred v) none).1 ((o.queryCond_model ch _ _ _).trans ho)
    refine ⟨(v, f) :: l, ?_, ?_, ?_⟩
    · rw [qLoop, DiGraph.predecessors, if_pos (hn v List.mem_cons_self)]
      simp only [py_ok_bind, h1, l1]
      rfl
    · rw [Dict.keys_cons, l2]
    · intro p hp
      rcases List.mem_cons.1 hp with rfl | hp
      · exact h2
      · exact l3 p hp

theorem dictOf_eq {X : Type} {l : List (V × X)} (h : (Dict.keys l).Nodup) : SCM.dictOf l = l := by
  have key : ∀ (l d : List (V × X)), (Dict.keys (d ++ l)).Nodup → l.foldl (fun d p => Dict.set d p.1 p.2) d = d ++ l := by
    intro l
    induction l with
    | nil => intro d _; simp
    | cons p l ih =>
      intro d hd
      have hv : p.1 ∉ Dict.keys d := by
        rw [Dict.keys_append, Dict.keys_cons] at hd
        exact fun hk => (List.disjoint_of_nodup_append hd) hk List.mem_cons_self
      rw [List.foldl_cons, Dict.set, if_neg hv, ih _ (by simpa using hd)]
      simp
  simpa [SCM.dictOf] using key l [] (by simpa using h)

/-- What the factors of one component have to be. -/
structure QPart (q : DiGraph V) (D : V → List S) (P : V → Factor I → Prop) (c : List V) (l : List (V × Factor I)) : Prop where
  nodup : (Dict.keys l).Nodup
  keys : ∀ w, w ∈ Dict.keys l ↔ w ∈ c
  fits : ∀ p ∈ l, DagModel.Fits q D p.1 p.2
  prop : ∀ p ∈ l, P p.1 p.2

theorem flatten_nodup {X Y : Type} [DecidableEq Y] {f : X → List Y} {l : List X} (h1 : ∀ x ∈ l, (f x).Nodup)
    (h2 : l.Pairwise fun x y => ∀ v ∈ f x, v ∉ f y) : (l.flatMap f).Nodup := by
  induction l with
  | nil => simp
  | cons x l ih =>
    rw [List.pairwise_cons] at h2
    rw [List.flatMap_cons, List.nodup_append']
    refine ⟨h1 x List.mem_cons_self, ih (fun y hy => h1 y (List.mem_cons_of_mem _ hy)) h2.2, fun v hv hv' => ?_⟩
    obtain ⟨y, hy, hy'⟩ := List.mem_flatMap.1 hv'
    exact h2.1 y hy v hv hy'

/-- The network over the decomposition graph, from the factors of the components. -/
theorem qbnet_ok {m : SCM I L} {q : DiGraph V} (hq : q.WF) (hac : q.Acyclic) {D : V → List S} {P : V → Factor I → Prop}
    {pop : List V → V} (hpop : ∀ c, c ≠ [] → pop c ∈ c) {get : V → Py (List (V × Factor I))}
    (hget : ∀ v ∈ (m.base.graph.exoGraph m.endogenous).nodes, ∃ l, get v = .ok l ∧
      QPart q D P (((m.base.graph.exoGraph m.endogenous).component v).filter (· ∈ m.endogenous)) l)
    (hcov : ∀ v ∈ q.nodes, v ∈ m.endogenous ∧ ∃ u, u ∉ m.endogenous ∧ (u, v) ∈ m.base.graph.edges) :
    ∃ bn, m.qbnet q pop get = .ok bn ∧ bn.graph = q ∧ ∀ v ∈ q.nodes, ∃ f, Dict.get? bn.factors v = some (some f) ∧
      DagModel.Fits q D v f ∧ P v f := by
  set g := m.base.graph
  set E := m.endogenous
  have hw := DiGraph.exoGraph_wf g E
  have hs := DiGraph.components_spec hw
  have hc : ∀ c ∈ g.ccomponents E, ∃ l, get (pop c) = .ok l ∧ QPart q D P (c.filter (· ∈ E)) l := by
    intro c hc
    obtain ⟨v, hv, rfl⟩ := hs.comp c hc
    have hvc : v ∈ (g.exoGraph E).component v := (DiGraph.mem_component hw hv).2 .refl
    have hp := hpop _ (List.ne_nil_of_mem hvc)
    have hp' := (DiGraph.mem_component hw hv).1 hp
    have hpn : pop ((g.exoGraph E).component v) ∈ (g.exoGraph E).nodes := by
      rcases ReflTransGen.cases_tail hp' with e | ⟨w, _, h⟩
      · rw [e]; exact hv
      · rcases h with h | h
        · exact (hw.ends _ h).2
        · exact (hw.ends _ h).1
    obtain ⟨l, l1, l2⟩ := hget _ hpn
    refine ⟨l, l1, l2.nodup, fun w => ?_, l2.fits, l2.prop⟩
    rw [l2.keys, List.mem_filter, List.mem_filter, DiGraph.mem_component hw hpn, DiGraph.mem_component hw hv]
    constructor
    · rintro ⟨h1, h2⟩; exact ⟨hp'.trans h1, h2⟩
    · rintro ⟨h1, h2⟩; exact ⟨(DiGraph.component_symm hp').trans h1, h2⟩
  choose! F hF1 hF2 using hc
  have hmap : (g.ccomponents E).mapM (fun c => get (pop c)) = .ok ((g.ccomponents E).map F) := mapM_ok hF1
  have hk : Dict.keys ((g.ccomponents E).flatMap F) = (g.ccomponents E).flatMap fun c => Dict.keys (F c) := by
    rw [Dict.keys, List.map_flatMap]; rfl
  have hnd : (Dict.keys ((g.ccomponents E).flatMap F)).Nodup := by
    rw [hk]
    refine flatten_nodup (fun c hc => (hF2 c hc).nodup) ?_
    refine hs.disjoint.imp_of_mem fun {c d} hc hd h v hv hv' => ?_
    exact h v (List.mem_filter.1 (((hF2 c hc).keys v).1 hv)).1 (List.mem_filter.1 (((hF2 d hd).keys v).1 hv')).1
  have hmem : ∀ p ∈ (g.ccomponents E).flatMap F, DagModel.Fits q D p.1 p.2 ∧ P p.1 p.2 := by
    intro p hp
    obtain ⟨c, hc, hp⟩ := List.mem_flatMap.1 hp
    exact ⟨(hF2 c hc).fits p hp, (hF2 c hc).prop p hp⟩
  refine ⟨DagModel.after q D true ((g.ccomponents E).flatMap F), ?_, rfl, fun v hv => ?_⟩
  · rw [SCM.qbnet, SCM.qfactorisation]
    simp only [show m.base.graph.ccomponents m.endogenous = g.ccomponents E from rfl, hmap, py_ok_bind]
    rw [← List.flatMap_def, show (pure (SCM.dictOf ((g.ccomponents E).flatMap F)) : Py _) = .ok (SCM.dictOf ((g.ccomponents E).flatMap F)) from rfl,
      py_ok_bind, dictOf_eq hnd, DagModel.ofDict, DagModel.init_ok hq hac, ← DagModel.after_nil q D true, py_ok_bind,
      DagModel.setFactorsDict, List.foldlM_map]
    exact DagModel.setAll (fs := []) _ (fun p hp => (hmem p hp).1) (by simpa using hnd)
  · obtain ⟨hvE, u, hu, huv⟩ := hcov v hv
    obtain ⟨c, hc, hvc⟩ := hs.cover v (DiGraph.exoGraph_nodes.2 ⟨(u, v), huv, hu, .inr rfl⟩)
    have hvk : v ∈ Dict.keys ((g.ccomponents E).flatMap F) := by
      rw [hk]
      exact List.mem_flatMap.2 ⟨c, hc, ((hF2 c hc).keys v).2 (List.mem_filter.2 ⟨hvc, by simpa using hvE⟩)⟩
    obtain ⟨f, hf⟩ := Option.isSome_iff_exists.1 (Dict.get?_isSome.2 hvk)
    refine ⟨f, ?_, hmem _ (Dict.mem_of_get? hf)⟩
    show Dict.get? (q.nodes.map fun v => (v, Dict.get? ((g.ccomponents E).flatMap F) v)) v = _
    rw [Dict.get?_map, if_pos hv, hf]

end

/-! ### The likelihood -/

section
variable {V S K R : Type} [DecidableEq V] [DecidableEq S] [Field K] [LinearOrder K] [Field R] [LinearOrder R]
  {I : StoreImpl V S (Fl K)} {log : K → R}

theorem zipWith_map_add (rows : List (Rec V S)) (f g : Rec V S → R) :
    List.zipWith (· + ·) (rows.map fun r => Fl.fin (f r)) (rows.map fun r => Fl.fin (g r)) = rows.map fun r => Fl.fin (f r + g r) := by
  induction rows with
  | nil => rfl
  | cons r rows ih => rw [List.map_cons, List.map_cons, List.zipWith_cons_cons, ih]; rfl

theorem foldl_add_rows {X : Type} (rows : List (Rec V S)) (l : List X) (x : X → Rec V S → R) (f : Rec V S → R) :
    (l.map fun v => rows.map fun r => Fl.fin (x v r)).foldl (List.zipWith (· + ·)) (rows.map fun r => Fl.fin (f r)) =
      rows.map fun r => Fl.fin (f r + (l.map fun v => x v r).sum) := by
  induction l generalizing f with
  | nil => simp
  | cons v l ih =>
    rw [List.map_cons, List.foldl_cons, zipWith_map_add, ih]
    refine List.map_congr_left fun r _ => ?_
    rw [List.map_cons, List.sum_cons, add_assoc]

theorem sum_fin_map (rows : List (Rec V S)) (f : Rec V S → R) : (rows.map fun r => Fl.fin (f r)).sum = .fin (rows.map f).sum := by
  have := map_list_sum (Fl.finHom (K := R)) (rows.map f)
  rw [List.map_map] at this
  exact this.symm

theorem sum_swap {X Y : Type} (l : List X) (k : List Y) (x : X → Y → R) :
    (k.map fun r => (l.map fun v => x v r).sum).sum = (l.map fun v => (k.map fun r => x v r).sum).sum := by
  induction l with
  | nil => simp
  | cons v l ih => simp only [List.map_cons, List.sum_cons, List.sum_map_add, ih]

/-- The likelihood when all the values are positive. -/
theorem logProb_ok {bn : DagModel (Factor I) V S} {rows : List (Rec V S)} {vs : List V} {x : V → Rec V S → K}
    (h : ∀ v ∈ (if vs = [] then bn.graph.nodes else vs), ∃ f, Dict.get? bn.factors v = some (some f) ∧
      ∀ r ∈ rows, f.recValue r = .ok (.fin (x v r)) ∧ 0 < x v r) :
    ∃ l, bn.logProb log rows vs = .ok l ∧
      l.sum = .fin (((if vs = [] then bn.graph.nodes else vs).map fun v => (rows.map fun r => log (x v r)).sum).sum) := by
  set W := if vs = [] then bn.graph.nodes else vs with hW
  set f : V → Option (Factor I) := fun v => (Dict.get? bn.factors v).getD none with hf
  have e1 : W.mapM (Dict.get bn.factors) = .ok (W.map f) := mapM_ok fun v hv => by
    obtain ⟨g, h1, _⟩ := h v hv
    simp only [Dict.get, hf, h1]; rfl
  have e2 : (W.map f).mapM (slotLogProb log rows) = .ok (W.map fun v => rows.map fun r => Fl.fin (log (x v r))) := by
    rw [List.mapM_map]
    refine mapM_ok fun v hv => ?_
    obtain ⟨g, h1, h2⟩ := h v hv
    have hg : f v = some g := by rw [hf]; simp only [h1]; rfl
    show slotLogProb log rows (f v) = _
    rw [hg]
    refine mapM_ok fun r hr => ?_
    obtain ⟨e, hp⟩ := h2 r hr
    rw [e, py_ok_bind, mathLog, if_pos hp]
  refine ⟨_, by rw [DagModel.logProb, ← hW, e1, py_ok_bind, e2, py_ok_bind]; rfl, ?_⟩
  have : List.replicate rows.length (Fl.fin (0 : R)) = rows.map fun _ => Fl.fin 0 := by simp
  rw [this, foldl_add_rows rows W (fun v r => log (x v r)) (fun _ => 0), sum_fin_map]
  simp only [zero_add]
  rw [sum_swap]

theorem mapM_error {X Y : Type} {f : X → Py Y} {e : PyErr} {l : List X} (h : ∀ x ∈ l, (∃ y, f x = .ok y) ∨ f x = .error e)
    (hx : ∃ x ∈ l, f x = .error e) : l.mapM f = .error e := by
  induction l with
  | nil => obtain ⟨x, hx, _⟩ := hx; cases hx
  | cons a l ih =>
    rw [List.mapM_cons]
    rcases h a List.mem_cons_self with ⟨y, hy⟩ | hy
    · obtain ⟨x, hx, he⟩ := hx
      have hxl : x ∈ l := by
        rcases List.mem_cons.1 hx with rfl | hx
        · rw [hy] at he; cases he
        · exact hx
      rw [hy, py_ok_bind, ih (fun z hz => h z (List.mem_cons_of_mem _ hz)) ⟨x, hxl, he⟩]
      rfl
    · rw [hy]; rfl

/-- A value that is not positive has no logarithm. -/
theorem logProb_error {bn : DagModel (Factor I) V S} {rows : List (Rec V S)} {vs : List V} {x : V → Rec V S → K}
    (h : ∀ v ∈ (if vs = [] then bn.graph.nodes else vs), ∃ f, Dict.get? bn.factors v = some (some f) ∧
      ∀ r ∈ rows, f.recValue r = .ok (.fin (x v r)))
    (h0 : ∃ v ∈ (if vs = [] then bn.graph.nodes else vs), ∃ r ∈ rows, ¬ 0 < x v r) :
    bn.logProb log rows vs = .error .valueError := by
  set W := if vs = [] then bn.graph.nodes else vs with hW
  set f : V → Option (Factor I) := fun v => (Dict.get? bn.factors v).getD none with hf
  have e1 : W.mapM (Dict.get bn.factors) = .ok (W.map f) := mapM_ok fun v hv => by
    obtain ⟨g, h1, _⟩ := h v hv
    simp only [Dict.get, hf, h1]; rfl
  have hslot : ∀ v ∈ W, ∀ r0 : Prop, (r0 ↔ ∃ r ∈ rows, ¬ 0 < x v r) → (r0 → slotLogProb log rows (f v) = .error .valueError) ∧
      (¬ r0 → ∃ l, slotLogProb log rows (f v) = .ok l) := by
    intro v hv r0 hr0
    obtain ⟨g, h1, h2⟩ := h v hv
    have hg : f v = some g := by rw [hf]; simp only [h1]; rfl
    have hrow : ∀ r ∈ rows, (do let x ← g.recValue r; mathLog log x) =
        if 0 < x v r then .ok (.fin (log (x v r))) else .error .valueError := by
      intro r hr
      rw [h2 r hr, py_ok_bind, mathLog]
    rw [hr0, hg]
    constructor
    · rintro ⟨r, hr, hx⟩
      refine mapM_error (fun r hr => ?_) ⟨r, hr, by rw [hrow r hr, if_neg hx]⟩
      rw [hrow r hr]
      split
      · exact .inl ⟨_, rfl⟩
      · exact .inr rfl
    · intro hn
      push Not at hn
      exact ⟨rows.map fun r => Fl.fin (log (x v r)), mapM_ok fun r hr => by rw [hrow r hr, if_pos (hn r hr)]⟩
  have e2 : (W.map f).mapM (slotLogProb log rows) = .error .valueError := by
    rw [List.mapM_map]
    obtain ⟨v, hv, hx⟩ := h0
    refine mapM_error (fun v hv => ?_) ⟨v, hv, (hslot v hv _ Iff.rfl).1 hx⟩
    by_cases hc : ∃ r ∈ rows, ¬ 0 < x v r
    · exact .inr ((hslot v hv _ Iff.rfl).1 hc)
    · exact .inl ((hslot v hv _ Iff.rfl).2 hc)
  rw [DagModel.logProb, ← hW, e1, py_ok_bind, e2]
  rfl

end
end Verif
