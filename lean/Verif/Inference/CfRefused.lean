import Verif.Inference.CfLemmas

/-!
# Counterfactual queries that fail: helper lemmas
-/

set_option linter.unusedSectionVars false
set_option linter.unusedSimpArgs false

namespace Verif

/-- A loop over a list with an element that cannot be treated fails. -/
theorem foldlM_fails {X Y : Type} {f : Y → X → Py Y} (P : Y → Prop) (hP : ∀ y x y', P y → f y x = .ok y' → P y') {l : List X} {x : X}
    (hx : x ∈ l) (hf : ∀ y, P y → ∃ e, f y x = .error e) {y : Y} (hy : P y) : ∃ e, l.foldlM f y = .error e := by
  induction l generalizing y with
  | nil => cases hx
  | cons z l ih =>
    rw [List.foldlM_cons]
    cases hz : f y z with
    | error e => exact ⟨e, rfl⟩
    | ok y' =>
      rcases List.mem_cons.1 hx with rfl | hx
      · obtain ⟨e, he⟩ := hf y hy
        rw [he] at hz; cases hz
      · exact ih hx (hP y z y' hy hz)

theorem foldlM_keeps {X Y : Type} {f : Y → X → Py Y} (P : Y → Prop) (hP : ∀ y x y', P y → f y x = .ok y' → P y') {l : List X}
    {y y' : Y} (hy : P y) (h : l.foldlM f y = .ok y') : P y' := by
  induction l generalizing y with
  | nil => cases h; exact hy
  | cons z l ih =>
    rw [List.foldlM_cons] at h
    cases hz : f y z with
    | error e => rw [hz] at h; cases h
    | ok y1 => rw [hz] at h; exact ih (hP y z y1 hy hz) h

theorem mapM_from {X Y : Type} {f : X → Py Y} {l : List X} {ys : List Y} (h : l.mapM f = .ok ys) {y : Y} (hy : y ∈ ys) :
    ∃ x ∈ l, f x = .ok y := by
  have := mapM_eq_ok h
  clear h
  induction this with
  | nil => cases hy
  | cons hx _ ih =>
    rcases List.mem_cons.1 hy with rfl | hy
    · exact ⟨_, List.mem_cons_self, hx⟩
    · obtain ⟨x, hx, hh⟩ := ih hy
      exact ⟨x, List.mem_cons_of_mem _ hx, hh⟩

theorem forall₂_strengthen {X Y : Type} {R R' : X → Y → Prop} {l : List X} {ys : List Y} (h : List.Forall₂ R l ys)
    (hR : ∀ x ∈ l, ∀ y, R x y → R' x y) : List.Forall₂ R' l ys := by
  induction h with
  | nil => exact .nil
  | cons hx _ ih => exact .cons (hR _ List.mem_cons_self _ hx) (ih fun x hx => hR x (List.mem_cons_of_mem _ hx))

namespace SCM
variable {V S K : Type} [DecidableEq V] [DecidableEq S] [Field K] [LinearOrder K] {I : StoreImpl V S (Fl K)} {L : LabelStore V S}

theorem _root_.Verif.DagModel.setFactor_graph {F : Type} [FactorLike F V S] {m m' : DagModel F V S} {v : V} {f : Option F}
    (h : m.setFactor v f = .ok m') : m'.graph = m.graph ∧ m'.check = m.check := by
  cases f with
  | none =>
    rw [DagModel.setFactor] at h
    split at h
    · cases h
    · split at h
      · cases h; exact ⟨rfl, rfl⟩
      · cases h
  | some f =>
    rw [DagModel.setFactor] at h
    have key : ∀ {m'' : DagModel F V S}, (match Dict.get? m.domains v with
        | some (some _) => (.ok { m with factors := Dict.set m.factors v (some f) } : Py (DagModel F V S))
        | _ => do
          let st ← Dict.get (FactorLike.dom f) v
          .ok { m with factors := Dict.set m.factors v (some f), domains := Dict.set m.domains v (some st) }) = .ok m'' →
        m''.graph = m.graph ∧ m''.check = m.check := by
      intro m'' h
      split at h
      · cases h; exact ⟨rfl, rfl⟩
      · cases hd : Dict.get (FactorLike.dom f) v with
        | error e => rw [hd] at h; cases h
        | ok st => rw [hd] at h; cases h; exact ⟨rfl, rfl⟩
    split at h
    · cases hc : m.checkFactor v f with
      | error e => rw [hc] at h; cases h
      | ok _ => rw [hc] at h; exact key h
    · exact key h

theorem setFactor_graph {m m' : SCM I L} {v : V} {f : Option (AnyFactor I L)} (h : m.setFactor v f = .ok m') :
    m'.base.graph = m.base.graph ∧ m'.base.check = m.base.check := by
  rw [setFactor] at h
  cases hp : prepare m.endogenous m.cast m.base.check v f with
  | error e => rw [hp] at h; cases h
  | ok g =>
    rw [hp, py_ok_bind] at h
    cases hb : m.base.setFactor v g with
    | error e => rw [hb] at h; cases h
    | ok b => rw [hb] at h; cases h; exact DagModel.setFactor_graph hb

theorem setOne_graph {m m' : SCM I L} {f : Option (AnyFactor I L)} (h : m.setOne f = .ok m') :
    m'.base.graph = m.base.graph ∧ m'.base.check = m.base.check := by
  cases f with
  | none => cases h
  | some f =>
    rw [setOne] at h
    cases hl : (DagModel.leftOf f : Py V) with
    | error e => rw [hl] at h; cases h
    | ok v => rw [hl] at h; exact setFactor_graph h

theorem init_graph {g : DiGraph V} {e : Option (List V)} {c k : Bool} {m : SCM I L} (h : init g e c k = .ok m) :
    m.base.graph = g ∧ m.base.check = k := by
  rw [init, DagModel.init] at h
  split at h
  · cases h
  · cases h; exact ⟨rfl, rfl⟩

theorem ofList_graph {g : DiGraph V} {fs : List (Option (AnyFactor I L))} {e : Option (List V)} {c k : Bool} {m : SCM I L}
    (h : ofList g fs e c k = .ok m) : m.base.graph = g := by
  rw [ofList] at h
  cases hi : (init g e c k : Py (SCM I L)) with
  | error e => rw [hi] at h; cases h
  | ok m0 =>
    rw [hi] at h
    exact foldlM_keeps (fun m : SCM I L => m.base.graph = g) (fun y x y' hy hx => (setOne_graph hx).1.trans hy) (init_graph hi).1 h

theorem ofDict_graph {g : DiGraph V} {fs : List (V × Option (AnyFactor I L))} {e : Option (List V)} {c k : Bool} {m : SCM I L}
    (h : ofDict g fs e c k = .ok m) : m.base.graph = g := by
  rw [ofDict] at h
  cases hi : (init g e c k : Py (SCM I L)) with
  | error e => rw [hi] at h; cases h
  | ok m0 =>
    rw [hi] at h
    exact foldlM_keeps (fun m : SCM I L => m.base.graph = g) (fun y x y' hy hx => (setFactor_graph hx).1.trans hy) (init_graph hi).1 h

/-- A factor for a variable outside the graph. -/
theorem setOne_outside {m : SCM I L} {f : AnyFactor I L} {v : V} (hc : m.base.check = true) (hl : (DagModel.leftOf f : Py V) = .ok v)
    (hv : v ∉ m.base.graph.nodes) : ∃ e, m.setOne (some f) = .error e := by
  have hb : ∀ g : AnyFactor I L, m.base.setFactor v (some g) = .error .networkx := by
    intro g
    rw [DagModel.setFactor, if_pos hc, DagModel.checkFactor, DiGraph.predecessors, if_neg hv]
    rfl
  rw [setOne, hl, py_ok_bind, setFactor]
  cases hp : prepare m.endogenous m.cast m.base.check v (some f) with
  | error e => exact ⟨e, rfl⟩
  | ok g =>
    rw [py_ok_bind]
    cases g with
    | none =>
      rw [DagModel.setFactor, if_pos hc]
      exact ⟨_, rfl⟩
    | some g => rw [hb]; exact ⟨_, rfl⟩

theorem ofList_outside {g : DiGraph V} {fs : List (Option (AnyFactor I L))} {e : Option (List V)} {c : Bool} {f : AnyFactor I L} {v : V}
    (hf : some f ∈ fs) (hl : (DagModel.leftOf f : Py V) = .ok v) (hv : v ∉ g.nodes) : ∃ err, ofList g fs e c true = .error err := by
  rw [ofList]
  cases hi : (init g e c true : Py (SCM I L)) with
  | error e => exact ⟨e, rfl⟩
  | ok m0 =>
    exact foldlM_fails (f := setOne) (fun m : SCM I L => m.base.graph = g ∧ m.base.check = true)
      (fun y x y' hy hx => ⟨(setOne_graph hx).1.trans hy.1, (setOne_graph hx).2.trans hy.2⟩) hf
      (fun y hy => setOne_outside hy.2 hl (by rw [hy.1]; exact hv)) (init_graph hi)

theorem intervention_graph {m m' : SCM I L} {d : Obs V S} (h : m.intervention d = .ok m') :
    m'.base.graph = m.base.graph.removeIngoing (Dict.keys d) := by
  rw [intervention] at h
  cases hf : m.base.factors.mapM (doFactor d) with
  | error e => simp only [hf] at h; cases h
  | ok fs => simp only [hf] at h; exact ofDict_graph h

theorem renameVars_graph {m m' : SCM I L} {mp : List (V × V)} (h : m.renameVars mp = .ok m') :
    m'.base.graph = m.base.graph.relabel (Factor.renameOne mp) := by
  rw [renameVars] at h
  cases hf : m.base.factors.mapM (renameSlot mp) with
  | error e => simp only [hf] at h; cases h
  | ok fs =>
    cases he : m.endogenous.mapM (Dict.get mp) with
    | error e => simp only [hf, he] at h; cases h
    | ok en => simp only [hf, he] at h; exact ofList_graph h

end SCM

variable {V S K : Type} [DecidableEq V] [DecidableEq S] [Inhabited S] [Field K] [LinearOrder K] [IsStrictOrderedRing K] {vt : VType}

local notation "II" => (storeOf vt : StoreImpl V S (Fl K))
local notation "LL" => (labelStoreOf vt : LabelStore V S)

namespace Causal

variable {B : BN V S K} {sfx : V → Nat → V} {dos : List (Obs V S)} {tg : List (V × Nat)}

/-- The edges of a hypothetical world. -/
theorem world_edges {m m' : SCM II LL} {p : Obs V S × Nat} (h : world sfx m p = .ok m') (e' : V × V) :
    e' ∈ m'.base.graph.edges ↔ ∃ e ∈ m.base.graph.edges, e.2 ∉ Dict.keys p.1 ∧
      e' = (copyName sfx m.endogenous (p.2 + 1) e.1, copyName sfx m.endogenous (p.2 + 1) e.2) := by
  rw [world] at h
  cases hi : m.intervention p.1 with
  | error e => rw [hi] at h; cases h
  | ok im =>
    rw [hi, py_ok_bind] at h
    rw [SCM.renameVars_graph h, SCM.intervention_graph hi, renameOne_copy]
    simp only [DiGraph.relabel, DiGraph.removeIngoing, List.mem_reverse, List.mem_dedup, List.mem_map, List.mem_filter, decide_eq_true_eq, and_assoc]
    exact exists_congr fun e => and_congr_right fun _ => and_congr_right fun _ => eq_comm

/-- The steps of the construction of the model of a counterfactual query. -/
theorem cfModel_parts {ord : List V → List V} {m m' : SCM II LL} (h : cfModel sfx ord m dos = .ok m') :
    ∃ ws f0 fs, dos.zipIdx.mapM (world sfx m) = .ok ws ∧
      (m :: ws).mapM (fun m' => m'.getFactors (ord (m'.base.graph.nodes.filter (· ∉ m.exogenous)))) = .ok fs ∧
      SCM.ofList (SCM.fusedGraph m ws) (f0 ++ fs.flatten) (some ((m :: ws).flatMap SCM.endogenous)) m.cast true = .ok m' := by
  rw [cfModel] at h
  cases hw : dos.zipIdx.mapM (world sfx m) with
  | error e => rw [hw] at h; cases h
  | ok ws =>
    rw [hw, py_ok_bind] at h
    simp only [SCM.fusionRoots] at h
    cases hr : (m.exogenous.zip (m :: ws)).mapM (fun p => do
      let pa ← p.2.base.graph.predecessors p.1
      return pa.length == 0) with
    | error e => rw [hr] at h; cases h
    | ok roots =>
      rw [hr, py_ok_bind] at h
      have key : (do
          let f0 ← m.getFactors m.exogenous
          let fs ← (m :: ws).mapM fun m' : SCM II LL => m'.getFactors (ord (m'.base.graph.nodes.filter (· ∉ m.exogenous)))
          SCM.ofList (SCM.fusedGraph m ws) (f0 ++ fs.flatten) (some ((m :: ws).flatMap SCM.endogenous)) m.cast true) = .ok m' := by
        cases hb : (!roots.all id) with
        | true => rw [if_pos hb] at h; cases h
        | false => rw [if_neg (by rw [hb]; simp)] at h; exact h
      cases hf : m.getFactors m.exogenous with
      | error e => rw [hf] at key; cases key
      | ok f0 =>
        rw [hf, py_ok_bind] at key
        cases hg : (m :: ws).mapM fun m' : SCM II LL => m'.getFactors (ord (m'.base.graph.nodes.filter (· ∉ m.exogenous))) with
        | error e => rw [hg] at key; cases key
        | ok fs =>
          rw [hg, py_ok_bind] at key
          exact ⟨ws, f0, fs, rfl, hg, key⟩

/-- The nodes of the model of a counterfactual query. -/
theorem cfModel_nodes {ord : List V → List V} {m m' : SCM II LL} (hr : m.Rep B) (hen : m.endogenous = B.inner)
    (h : cfModel sfx ord m dos = .ok m') {w : V} (hw : w ∈ m'.base.graph.nodes) :
    w ∈ B.nodes ∨ ∃ p ∈ dos.zipIdx, ∃ v ∈ B.inner, w = sfx v (p.2 + 1) ∧ (v ∈ Dict.keys p.1 → ∃ c ∈ B.nodes, v ∈ B.parents c ∧ c ∉ Dict.keys p.1) := by
  obtain ⟨ws, f0, fs, h1, _, h3⟩ := cfModel_parts h
  rw [SCM.ofList_graph h3, (SCM.fusedGraph_spec ws hr.wf).2.1, hr.nodes] at hw
  rcases hw with hw | ⟨m1, hm1, e, he, hw⟩
  · exact .inl hw
  · obtain ⟨p, hp, hpw⟩ : ∃ p ∈ dos.zipIdx, world sfx m p = .ok m1 := mapM_from h1 hm1
    obtain ⟨e0, he0, hd, rfl⟩ := (world_edges hpw e).1 he
    have hends := hr.wf.ends e0 he0
    rw [hr.nodes] at hends
    have hpar := (hr.parents e0.2 hends.2 e0.1).2 he0
    simp only [hen] at hw
    rcases hw with rfl | rfl
    · by_cases hx : e0.1 ∈ B.inner
      · rw [BN.TwinOk.copy_endo hx]
        exact .inr ⟨p, hp, _, hx, rfl, fun _ => ⟨e0.2, hends.2, hpar, hd⟩⟩
      · rw [copyName, if_neg hx]; exact .inl hends.1
    · by_cases hx : e0.2 ∈ B.inner
      · rw [BN.TwinOk.copy_endo hx]
        exact .inr ⟨p, hp, _, hx, rfl, fun hc => absurd hc hd⟩
      · rw [copyName, if_neg hx]; exact .inl hends.2

/-- An intervened variable without a child outside the intervention. -/
theorem cfModel_childless {ord : List V → List V} (hord : ∀ l, (ord l).Nodup ∧ ∀ v, v ∈ ord l ↔ v ∈ l) {m : SCM II LL} (hr : m.Rep B)
    (hen : m.endogenous = B.inner) (ht : B.TwinOk m.exogenous m.endogenous sfx dos) {p : Obs V S × Nat} (hp : p ∈ dos.zipIdx) {v : V}
    (hv : v ∈ B.inner) (hk : v ∈ Dict.keys p.1) (hc : ¬ ∃ c ∈ B.nodes, v ∈ B.parents c ∧ c ∉ Dict.keys p.1) :
    ∃ e, cfModel sfx ord m dos = .error e := by
  cases hm : cfModel sfx ord m dos with
  | error e => exact ⟨e, rfl⟩
  | ok m' =>
    exfalso
    obtain ⟨ws, f0, fs, h1, h2, h3⟩ := cfModel_parts hm
    have hout : sfx v (p.2 + 1) ∉ (SCM.fusedGraph m ws).nodes := by
      intro hw
      rw [← SCM.ofList_graph h3] at hw
      rcases cfModel_nodes hr hen hm hw with hw | ⟨p', hp', v', hv', e, hch⟩
      · exact ht.fresh v (hen ▸ hv) _ (by omega) (by have := mem_zipIdx hp; omega) hw
      · have i1 := mem_zipIdx hp
        have i2 := mem_zipIdx hp'
        obtain ⟨rfl, e2⟩ := ht.inj v (hen ▸ hv) v' (hen ▸ hv') _ _ (by omega) (by omega) (by omega) (by omega) e
        have hpp : p' = p := by
          have e3 : p'.2 = p.2 := by omega
          refine Prod.ext ?_ e3
          have := i2.1
          rw [e3, i1.1] at this
          exact (Option.some.inj this).symm
        subst hpp
        exact hc (hch hk)
    -- the factor of the copy is among those set
    have hF : List.Forall₂ SCM.Rep (m :: ws) (B :: B.twins m.endogenous sfx dos) := by
      refine .cons hr ?_
      rw [BN.twins]
      have h5 := forall₂_strengthen (R' := fun q w => SCM.Rep w (B.twin m.endogenous sfx q)) (mapM_eq_ok h1) fun q hq w hw => by
        obtain ⟨w', e1, r1, _⟩ := world_ok hr ht hq
        rw [hw] at e1; cases e1; exact r1
      exact List.forall₂_map_right_iff.2 (List.Forall₂.flip h5)
    obtain ⟨ls, g1, g2, g3⟩ := SCM.getFactors_models hord (on := m.exogenous) hF
    rw [h2] at g1
    have hmB := (SCM.forall₂_mem hF).2
    have hperm := g3 fun B' hB' => by
      obtain ⟨m1, _, r1⟩ := hmB B' hB'
      rw [← r1.nodes]; exact r1.wf.nodes
    have hex : ∀ x ∈ m.exogenous, x ∈ B.nodes := fun x hx => by
      rw [← hr.nodes]; exact (List.mem_filter.1 hx).1
    have hkey : sfx v (p.2 + 1) ∈ Dict.keys ls.flatten := by
      refine hperm.mem_iff.1 (List.mem_flatMap.2 ⟨B.twin m.endogenous sfx p, List.mem_cons_of_mem _ (List.mem_map_of_mem hp), ?_⟩)
      refine List.mem_filter.2 ⟨(ht.mem_twin _).2 (.inr ⟨v, hen ▸ hv, rfl⟩), ?_⟩
      simpa using fun hc => ht.fresh v (hen ▸ hv) _ (by omega) (by have := mem_zipIdx hp; omega) (hex _ hc)
    obtain ⟨f, hf⟩ := Dict.mem_keys.1 hkey
    obtain ⟨l, hl, hfl⟩ := List.mem_flatten.1 hf
    obtain ⟨_, _, B', _, _, _, htab, _⟩ := g2 l hl
    have hleft := (htab _ hfl).left_eq
    obtain ⟨e, he⟩ := SCM.ofList_outside (g := SCM.fusedGraph m ws) (fs := f0 ++ fs.flatten) (e := some ((m :: ws).flatMap SCM.endogenous))
      (c := m.cast) (f := f) (v := sfx v (p.2 + 1)) (by
        refine List.mem_append_right _ ?_
        cases g1
        exact List.mem_flatten.2 ⟨_, List.mem_map_of_mem hl, List.mem_map.2 ⟨_, hfl, rfl⟩⟩) (by
        have h7 : FactorLike.leftVars f = [sfx v (p.2 + 1)] := hleft
        rw [DagModel.leftOf, h7]; rfl) hout
    rw [he] at h3; cases h3

end Causal
end Verif
