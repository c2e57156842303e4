import Verif.Model.Mixed
import Verif.Learn.EMScmLemmas

/-!
# Factors in different stores: helper lemmas
-/

set_option linter.unusedSectionVars false
set_option linter.unusedSimpArgs false

namespace Verif

variable {V S K : Type} [DecidableEq V] [DecidableEq S] [Field K] [LinearOrder K]

/-- A factor of one store, with its `vtype` -/
def inStore (vt : VType) (f : Factor (storeOf vt : StoreImpl V S (Fl K))) : VFactor V S K := ⟨vt, f⟩

/-! ### One store -/

namespace VFactor

theorem binary_same (op : ∀ vt, Factor (storeOf vt : StoreImpl V S (Fl K)) → Factor (storeOf vt : StoreImpl V S (Fl K)) → Py (Factor (storeOf vt : StoreImpl V S (Fl K))))
    {vt : VType} (f g : Factor (storeOf vt : StoreImpl V S (Fl K))) : binary op (inStore vt f) (inStore vt g) = (op vt f g).map (inStore vt) := by
  rw [binary, dif_pos (show (inStore vt g).vtype = (inStore vt f).vtype from rfl)]
  show (op vt f g >>= fun r => pure (inStore vt r)) = _
  cases op vt f g <;> rfl

theorem binary_differ (op : ∀ vt, Factor (storeOf vt : StoreImpl V S (Fl K)) → Factor (storeOf vt : StoreImpl V S (Fl K)) → Py (Factor (storeOf vt : StoreImpl V S (Fl K))))
    {f g : VFactor V S K} (h : f.vtype ≠ g.vtype) : binary op f g = .error .valueError := by
  rw [binary, dif_neg (Ne.symm h)]

theorem binary_ok {op : ∀ vt, Factor (storeOf vt : StoreImpl V S (Fl K)) → Factor (storeOf vt : StoreImpl V S (Fl K)) → Py (Factor (storeOf vt : StoreImpl V S (Fl K)))}
    {f g r : VFactor V S K} (h : binary op f g = .ok r) :
    ∃ (vt : VType) (f' g' r' : Factor (storeOf vt : StoreImpl V S (Fl K))), f = inStore vt f' ∧ g = inStore vt g' ∧ r = inStore vt r' ∧ op vt f' g' = .ok r' := by
  obtain ⟨vt, f'⟩ := f
  obtain ⟨vg, g'⟩ := g
  by_cases e : vg = vt
  · subst e
    have hb := binary_same op f' g'
    rw [show (⟨vg, f'⟩ : VFactor V S K) = inStore vg f' from rfl, show (⟨vg, g'⟩ : VFactor V S K) = inStore vg g' from rfl, hb] at h
    cases ho : op vg f' g' with
    | error e => rw [ho] at h; cases h
    | ok r' => rw [ho] at h; injection h with h; exact ⟨vg, f', g', r', rfl, rfl, h.symm, ho⟩
  · rw [binary_differ op (Ne.symm e)] at h; cases h

theorem restrict_same {vt : VType} (f : Factor (storeOf vt : StoreImpl V S (Fl K))) (obs : Obs V S) :
    (inStore vt f).restrict obs = (f.restrict obs).map (inStore vt) := by
  show (f.restrict obs >>= fun r => pure (inStore vt r)) = _
  cases f.restrict obs <;> rfl

theorem marginalize_same {vt : VType} (f : Factor (storeOf vt : StoreImpl V S (Fl K))) (xs : List V) :
    (inStore vt f).marginalize xs = (f.marginalize xs).map (inStore vt) := by
  show (f.marginalize xs >>= fun r => pure (inStore vt r)) = _
  cases f.marginalize xs <;> rfl

theorem timesScalar_same {vt : VType} (f : Factor (storeOf vt : StoreImpl V S (Fl K))) (c : Fl K) :
    (inStore vt f).timesScalar c = (f.timesScalar c).map (inStore vt) := by
  show (f.timesScalar c >>= fun r => pure (inStore vt r)) = _
  cases f.timesScalar c <;> rfl

theorem combineAll_same {vt : VType} (fs : List (Factor (storeOf vt : StoreImpl V S (Fl K)))) :
    combineAll (fs.map (inStore vt)) = (Factor.combineAll fs).map (inStore vt) := by
  cases fs with
  | nil => rfl
  | cons f fs => exact foldlM_sim (fun s x => binary_same _ s x) fs f

end VFactor

/-- A model of one store, with the `vtype` of its factors -/
def modelIn (vt : VType) (b : DagModel (Factor (storeOf vt : StoreImpl V S (Fl K))) V S) : DagModel (VFactor V S K) V S :=
  ⟨b.graph, b.factors.map fun p => (p.1, p.2.map (inStore vt)), b.domains, b.check⟩

section
variable {vt : VType}

theorem set_in (d : List (V × Option (Factor (storeOf vt : StoreImpl V S (Fl K))))) (v : V) (o : Option (Factor (storeOf vt : StoreImpl V S (Fl K)))) :
    Dict.set (d.map fun p => (p.1, p.2.map (inStore vt))) v (o.map (inStore vt)) = (Dict.set d v o).map fun p => (p.1, p.2.map (inStore vt)) := by
  have hk : Dict.keys (d.map fun p => (p.1, p.2.map (inStore vt))) = Dict.keys d := by simp [Dict.keys, Function.comp_def]
  rw [Dict.set, Dict.set, hk]
  split
  · rw [List.map_map, List.map_map]
    refine List.map_congr_left fun p _ => ?_
    by_cases h : p.1 = v
    · simp [Function.comp, h]
    · simp [Function.comp, h]
  · rw [List.map_append]; rfl

theorem setFactor_in (b : DagModel (Factor (storeOf vt : StoreImpl V S (Fl K))) V S) (v : V) (o : Option (Factor (storeOf vt : StoreImpl V S (Fl K)))) :
    (modelIn vt b).setFactor v (o.map (inStore vt)) = (b.setFactor v o).map (modelIn vt) := by
  have hset := fun o => set_in (vt := vt) b.factors v o
  cases o with
  | none =>
    have hn := hset none
    simp only [Option.map_none] at hn
    rw [Option.map_none, DagModel.setFactor, DagModel.setFactor]
    show (if b.check = true then _ else match Dict.get? b.domains v with
      | some (some _) => _ | _ => _) = _
    split
    · rfl
    · rcases Dict.get? b.domains v with _ | _ | st
      · rfl
      · rfl
      · show Except.ok (DagModel.mk b.graph (Dict.set (b.factors.map fun p => (p.1, p.2.map (inStore vt))) v none) b.domains b.check) = _
        rw [hn]; rfl
  | some f =>
    have hn := hset (some f)
    simp only [Option.map_some] at hn
    rw [Option.map_some, DagModel.setFactor, DagModel.setFactor]
    have key : ∀ x : Py PUnit, ((x >>= fun _ => match Dict.get? b.domains v with
        | some (some _) => Except.ok { (modelIn vt b) with factors := Dict.set (b.factors.map fun p => (p.1, p.2.map (inStore vt))) v (some (inStore vt f)) }
        | _ => do
          let st ← Dict.get (FactorLike.dom f) v
          .ok { (modelIn vt b) with factors := Dict.set (b.factors.map fun p => (p.1, p.2.map (inStore vt))) v (some (inStore vt f)), domains := Dict.set b.domains v (some st) })
          : Py (DagModel (VFactor V S K) V S)) = ((x >>= fun _ => match Dict.get? b.domains v with
        | some (some _) => Except.ok { b with factors := Dict.set b.factors v (some f) }
        | _ => do
          let st ← Dict.get (FactorLike.dom f) v
          .ok { b with factors := Dict.set b.factors v (some f), domains := Dict.set b.domains v (some st) })
          : Py (DagModel (Factor (storeOf vt : StoreImpl V S (Fl K))) V S)).map (modelIn vt) := by
      intro x
      rw [hn]
      cases x with
      | error e => rfl
      | ok u =>
        rw [py_ok_bind, py_ok_bind]
        rcases Dict.get? b.domains v with _ | _ | st
        · cases Dict.get (FactorLike.dom f) v <;> rfl
        · cases Dict.get (FactorLike.dom f) v <;> rfl
        · rfl
    by_cases hk : b.check = true
    · rw [if_pos (show (modelIn vt b).check = true from hk), if_pos hk]
      exact key (b.checkFactor v f)
    · rw [if_neg (show ¬ (modelIn vt b).check = true from hk), if_neg hk]
      exact key (.ok ())

theorem init_in (g : DiGraph V) (check : Bool) :
    (DagModel.init g check : Py (DagModel (VFactor V S K) V S)) =
      (DagModel.init g check : Py (DagModel (Factor (storeOf vt : StoreImpl V S (Fl K))) V S)).map (modelIn vt) := by
  rw [DagModel.init, DagModel.init]
  split
  · rfl
  · simp [Except.map, modelIn, Function.comp_def]

theorem ofDict_in (g : DiGraph V) (fs : List (V × Option (Factor (storeOf vt : StoreImpl V S (Fl K))))) (check : Bool) :
    (DagModel.ofDict g (fs.map fun p => (p.1, p.2.map (inStore vt))) check : Py (DagModel (VFactor V S K) V S)) =
      (DagModel.ofDict g fs check).map (modelIn vt) := by
  rw [DagModel.ofDict, DagModel.ofDict, init_in (vt := vt)]
  cases (DagModel.init g check : Py (DagModel (Factor (storeOf vt : StoreImpl V S (Fl K))) V S)) with
  | error e => rfl
  | ok b => exact foldlM_sim (fun s x => setFactor_in s x.1 x.2) fs b

theorem mapM_same {X Y Y' : Type} {f : X → Py Y} {f' : X → Py Y'} {ψ : Y → Y'} {l : List X} (h : ∀ x ∈ l, f' x = (f x).map ψ) :
    l.mapM f' = (l.mapM f).map (List.map ψ) := by
  induction l with
  | nil => rfl
  | cons x l ih =>
    rw [List.mapM_cons, List.mapM_cons, h x List.mem_cons_self, ih fun y hy => h y (List.mem_cons_of_mem _ hy)]
    cases f x with
    | error e => rfl
    | ok y => cases l.mapM f <;> rfl

theorem minimalize_in (b : DagModel (Factor (storeOf vt : StoreImpl V S (Fl K))) V S) (T : List V) (ev : Obs V S) :
    Mixed.minimalize (modelIn vt b) T ev = (minimalize (I := storeOf vt) b T ev).map (modelIn vt) := by
  rw [Mixed.minimalize, minimalize]
  show (List.mapM _ ((b.factors.map fun p => (p.1, p.2.map (inStore vt))).filter _) >>= _) = Except.map _ (List.mapM _ (b.factors.filter _) >>= _)
  rw [List.filter_map, mapM_map', Except.map_bind']
  rw [mapM_same (ψ := fun p : V × Option (Factor (storeOf vt : StoreImpl V S (Fl K))) => (p.1, p.2.map (inStore vt)))
    (f := fun p => match p.2 with
      | none => .error .attributeError
      | some f => do
        let r ← VEFactor.restrict (I := storeOf vt) f (ev.filter fun q => q.1 ∈ FactorLike.rightVars f)
        return (p.1, some r))]
  · rw [Except.bind_map']
    congr 1
    · refine mapM_congr' fun p _ => ?_
      obtain ⟨v, _ | f⟩ := p <;> rfl
    · funext l
      exact ofDict_in _ l false
  · rintro ⟨v, _ | f⟩ _
    · rfl
    · show ((inStore vt f).restrict (ev.filter fun q => q.1 ∈ f.rightVars) >>= _) = Except.map _ (f.restrict (ev.filter fun q => q.1 ∈ f.rightVars) >>= _)
      rw [VFactor.restrict_same]
      cases f.restrict (ev.filter fun q => q.1 ∈ f.rightVars) <;> rfl

theorem elimStep_in (fs : List (Factor (storeOf vt : StoreImpl V S (Fl K)))) (x : V) :
    Mixed.elimStep (fs.map (inStore vt)) x = (Elim.elimStep fs x).map (List.map (inStore vt)) := by
  rw [Mixed.elimStep, Elim.elimStep]
  have e1 : ((fs.map (inStore vt)).filter fun f => x ∈ f.vars) = (fs.filter fun f => x ∈ f.vars).map (inStore vt) := by rw [List.filter_map]; rfl
  have e2 : ((fs.map (inStore vt)).filter fun f => x ∉ f.vars) = (fs.filter fun f => x ∉ f.vars).map (inStore vt) := by rw [List.filter_map]; rfl
  rw [e1, e2, VFactor.combineAll_same]
  cases Factor.combineAll (fs.filter fun f => x ∈ f.vars) with
  | error e => rfl
  | ok j =>
    show ((inStore vt j).marginalize [x] >>= _) = Except.map _ (j.marginalize [x] >>= _)
    rw [VFactor.marginalize_same]
    cases j.marginalize [x] with
    | error e => rfl
    | ok r =>
      show Except.ok (if r.leftVars.length > 0 then _ else _) = Except.ok (List.map (inStore vt) (if r.leftVars.length > 0 then _ else _))
      split <;> simp

theorem veRun_in (ch : Choices V) (b : DagModel (Factor (storeOf vt : StoreImpl V S (Fl K))) V S) (T : List V) (ev : Obs V S) :
    Mixed.veRun ch (modelIn vt b) T ev = (veRun ch b T ev).map (inStore vt) := by
  rw [Mixed.veRun, veRun]
  have e0 : (modelIn vt b).factors.mapM Mixed.slotFactor = (b.factors.mapM slotFactor).map (List.map (inStore vt)) := by
    show (b.factors.map _).mapM _ = _
    rw [mapM_map']
    refine mapM_same ?_
    rintro ⟨v, _ | f⟩ _ <;> rfl
  rw [e0]
  cases b.factors.mapM slotFactor with
  | error e => rfl
  | ok fs =>
    show (if (fs.map (inStore vt)).isEmpty = true then _ else _) = Except.map _ (if fs.isEmpty = true then _ else _)
    by_cases he : fs.isEmpty = true
    · rw [if_pos he, if_pos (by simpa using he)]; rfl
    · rw [if_neg he, if_neg (by simpa using he)]
      have ev1 : (fs.map (inStore vt)).flatMap VFactor.vars = fs.flatMap Factor.vars := by
        rw [List.flatMap_map]; rfl
      show ((modelIn vt b).varsizes >>= _) = Except.map _ (b.varsizes >>= _)
      rw [ev1]
      show (b.varsizes >>= _) = Except.map _ (b.varsizes >>= _)
      cases b.varsizes with
      | error e => rfl
      | ok sz =>
        show (ch.heur b.graph _ sz >>= _) = Except.map _ (ch.heur b.graph _ sz >>= _)
        cases ch.heur b.graph ((ch.setOrd (fs.flatMap Factor.vars)).filter fun v => v ∉ T ∧ v ∉ Dict.keys ev) sz with
        | error e => rfl
        | ok ord =>
          show (ord.foldlM Mixed.elimStep (fs.map (inStore vt)) >>= _) = Except.map _ (Elim.eliminate ord fs >>= _)
          have e2 : ord.foldlM Mixed.elimStep (fs.map (inStore vt)) = (Elim.eliminate ord fs).map (List.map (inStore vt)) := by
            have := foldlM_sim (ψ := List.map (inStore (V := V) (S := S) (K := K) vt)) (φ := id) (f := Elim.elimStep) (f' := Mixed.elimStep)
              (fun s x => elimStep_in s x) ord fs
            rwa [List.map_id] at this
          rw [e2]
          cases Elim.eliminate ord fs with
          | error e => rfl
          | ok gs =>
            show (VFactor.combineAll (gs.map (inStore vt)) >>= _) = Except.map _ (Factor.combineAll gs >>= _)
            rw [VFactor.combineAll_same]
            cases Factor.combineAll gs with
            | error e => rfl
            | ok j =>
              show ((inStore vt j).restrict ev >>= _) = Except.map _ (j.restrict ev >>= _)
              rw [VFactor.restrict_same]
              cases j.restrict ev with
              | error e => rfl
              | ok j' =>
                show ((inStore vt j').marginalize T >>= _) = Except.map _ (j'.marginalize T >>= _)
                rw [VFactor.marginalize_same]
                cases j'.marginalize T with
                | error e => rfl
                | ok mg => exact VFactor.binary_same (fun _ => Factor.divide) j' mg

theorem query_in (ch : Choices V) (b : DagModel (Factor (storeOf vt : StoreImpl V S (Fl K))) V S) (T : List V) (ev : Obs V S) (o : VEObj (Factor (storeOf vt : StoreImpl V S (Fl K))) (storeOf vt))
    (ho : o.model = b) : Mixed.query ch (modelIn vt b) T ev = (o.query ch T (some ev)).2.map (inStore vt) := by
  subst ho
  rw [Mixed.query, VEObj.query, Option.getD_some]
  by_cases h1 : T.Nodup
  · rw [if_neg (not_not.2 h1)]
    by_cases h2 : ∀ t ∈ T, t ∉ Dict.keys ev
    · rw [if_neg (not_not.2 h2)]
      by_cases h3 : ∀ v ∈ T ++ Dict.keys ev, v ∈ o.model.graph.nodes
      · rw [if_neg (not_not.2 (show ∀ v ∈ T ++ Dict.keys ev, v ∈ (modelIn vt o.model).graph.nodes from h3)), minimalize_in]
        cases hm : minimalize (I := (storeOf vt : StoreImpl V S (Fl K))) o.model T ev with
        | error e =>
          have hc : o.compile T (some ev) = ({ o with target := some T, evidence := ev }, .error e) := by
            rw [VEObj.compile.eq_def, if_neg (not_not.2 h1)]
            simp only [if_neg (not_not.2 h2)]
            rw [if_neg (not_not.2 h3), hm]
          rw [hc]; rfl
        | ok i =>
          have hc : o.compile T (some ev) = ({ o with target := some T, evidence := ev, infModel := some i, compiled := true }, .ok ()) := by
            rw [VEObj.compile.eq_def, if_neg (not_not.2 h1)]
            simp only [if_neg (not_not.2 h2)]
            rw [if_neg (not_not.2 h3), hm]
          rw [hc]
          exact veRun_in ch i T ev
      · have hc : o.compile T (some ev) = ({ o with target := some T, evidence := ev }, .error .nodeNotFound) := by
          rw [VEObj.compile.eq_def, if_neg (not_not.2 h1)]
          simp only [if_neg (not_not.2 h2)]
          rw [if_pos h3]
        rw [hc, if_pos (show ¬ ∀ v ∈ T ++ Dict.keys ev, v ∈ (modelIn vt o.model).graph.nodes from h3)]; rfl
    · have hc : o.compile T (some ev) = (o, .error .valueError) := by
        rw [VEObj.compile.eq_def, if_neg (not_not.2 h1)]
        simp only [if_pos h2]
      rw [hc, if_pos h2]; rfl
  · have hc : o.compile T (some ev) = (o, .error .valueError) := by
      rw [VEObj.compile.eq_def, if_pos h1]
    rw [hc, if_pos h1]; rfl

/-! ### Expectation maximisation in the default store -/

theorem query_model' (ch : Choices V) (o : VEObj (Factor (storeOf vt : StoreImpl V S (Fl K))) (storeOf vt : StoreImpl V S (Fl K))) (T : List V) (e : Option (Obs V S)) :
    (o.query ch T e).1.model = o.model := by
  have h : ∀ ev, (o.compile T ev).1.model = o.model := by
    intro ev
    unfold VEObj.compile
    repeat' first | split | dsimp only
    all_goals rfl
  have h' := h (some (e.getD []))
  unfold VEObj.query
  revert h'
  rcases o.compile T (some (e.getD [])) with ⟨o', r⟩
  cases r <;> exact id

theorem getParents_in (b : DagModel (Factor (storeOf vt : StoreImpl V S (Fl K))) V S) (vs : List V) : (modelIn vt b).getParents vs = b.getParents vs := rfl

theorem stateList_in (b : DagModel (Factor (storeOf vt : StoreImpl V S (Fl K))) V S) (v : V) : VEM.stateList (modelIn vt b) v = EM.stateList b v := by
  rw [VEM.stateList, EM.stateList]
  show (Dict.get b.domains v >>= _) = _
  cases Dict.get b.domains v with
  | error e => rfl
  | ok o => cases o <;> rfl

theorem zeroCounts_in (b : DagModel (Factor (storeOf vt : StoreImpl V S (Fl K))) V S) (v : V) :
    VEM.zeroCounts vt (modelIn vt b) v = (EM.zeroCounts b v).map (inStore vt) := by
  rw [VEM.zeroCounts, EM.zeroCounts, getParents_in]
  cases b.getParents [v] with
  | error e => rfl
  | ok pa =>
    show ((v :: pa).mapM (VEM.stateList (modelIn vt b)) >>= _) = Except.map _ ((v :: pa).mapM (EM.stateList b) >>= _)
    rw [mapM_congr' fun x _ => stateList_in b x]
    cases (v :: pa).mapM (EM.stateList b) with
    | error e => rfl
    | ok d =>
      show ((Factor.makeScalar (storeOf vt) d (.fin 0) none none : Py (Factor (storeOf vt : StoreImpl V S (Fl K)))) >>= fun r => pure (inStore vt r)) =
        Except.map _ (Factor.makeScalar (storeOf vt) d (.fin 0) none none : Py (Factor (storeOf vt : StoreImpl V S (Fl K))))
      cases (Factor.makeScalar (storeOf vt) d (.fin 0) none none : Py (Factor (storeOf vt : StoreImpl V S (Fl K)))) <;> rfl

/-- The learner over a model of one store, with the `vtype` of its factors -/
def emIn (vt : VType) (s : EM (storeOf vt : StoreImpl V S (Fl K))) : VEM V S K := ⟨modelIn vt s.prior, modelIn vt s.model, s.trainable, s.converged, s.data⟩

theorem addCounts_in (ch : Choices V) (m : DagModel (Factor (storeOf vt : StoreImpl V S (Fl K))) V S) (v : V) (pa : List V) (l : List (Obs V S × ℕ))
    (o : VEObj (Factor (storeOf vt : StoreImpl V S (Fl K))) (storeOf vt)) (f : Factor (storeOf vt : StoreImpl V S (Fl K))) (ho : o.model = m) :
    l.foldlM (VEM.addCounts ch (modelIn vt m) v pa) (inStore vt f) = (l.foldlM (EM.addCounts ch v pa) (o, f)).map (fun q => inStore vt q.2) ∧
      ∀ q, l.foldlM (EM.addCounts ch v pa) (o, f) = .ok q → q.1.model = m := by
  induction l generalizing o f with
  | nil => exact ⟨rfl, fun q h => by injection h with h; subst h; exact ho⟩
  | cons oc l ih =>
    rw [List.foldlM_cons, List.foldlM_cons]
    have e : VEM.addCounts ch (modelIn vt m) v pa (inStore vt f) oc = (EM.addCounts ch v pa (o, f) oc).map (fun q => inStore vt q.2) := by
      rw [VEM.addCounts, EM.addCounts]
      show (Mixed.query ch (modelIn vt m) _ oc.1 >>= _) = Except.map _ ((o.query ch _ (some oc.1)).2 >>= _)
      rw [query_in ch m _ oc.1 o ho]
      cases (o.query ch ((v :: pa).filter fun x => x ∉ Dict.keys oc.1) (some oc.1)).2 with
      | error e => rfl
      | ok p =>
        show ((inStore vt p).timesScalar _ >>= _) = Except.map _ (p.timesScalar _ >>= _)
        rw [VFactor.timesScalar_same]
        cases p.timesScalar (.fin (oc.2 : K)) with
        | error e => rfl
        | ok e =>
          show (inStore vt f).addition (inStore vt e) = Except.map _ (f.addition e >>= _)
          rw [VFactor.addition, VFactor.binary_same]
          cases f.addition e <;> rfl
    have e2 : ∀ q, EM.addCounts ch v pa (o, f) oc = .ok q → q.1.model = m := by
      intro q h
      rw [EM.addCounts] at h
      simp only at h
      cases h1 : (o.query ch ((v :: pa).filter fun x => x ∉ Dict.keys oc.1) (some oc.1)).2 with
      | error e => rw [h1] at h; cases h
      | ok p =>
        rw [h1, py_ok_bind] at h
        cases h2 : p.timesScalar (.fin (oc.2 : K)) with
        | error e => rw [h2] at h; cases h
        | ok e =>
          rw [h2, py_ok_bind] at h
          cases h3 : f.addition e with
          | error e => rw [h3] at h; cases h
          | ok g =>
            rw [h3, py_ok_bind] at h
            injection h with h
            subst h
            exact (query_model' ch o _ _).trans ho
    rw [e]
    cases h : EM.addCounts ch v pa (o, f) oc with
    | error e => exact ⟨rfl, fun q hq => by cases hq⟩
    | ok q =>
      obtain ⟨o', g⟩ := q
      exact ih o' g (e2 _ h)

theorem get_in (p0 : List (V × Factor (storeOf vt : StoreImpl V S (Fl K)))) (v : V) :
    Dict.get (p0.map fun p => (p.1, inStore vt p.2)) v = (Dict.get p0 v).map (inStore vt) := by
  induction p0 with
  | nil => rfl
  | cons p p0 ih =>
    obtain ⟨w, f⟩ := p
    by_cases h : w = v
    · subst h; simp [Dict.get, Dict.get?, Except.map]
    · simpa [Dict.get, Dict.get?, h] using ih

theorem expectation_in (ch : Choices V) (s : EM (storeOf vt : StoreImpl V S (Fl K))) :
    VEM.expectation vt ch (emIn vt s) = (EM.expectation ch s).map (List.map fun p => (p.1, inStore vt p.2)) := by
  rw [VEM.expectation, EM.expectation]
  have e0 : (emIn vt s).trainable.mapM (fun v => do
      let f ← VEM.zeroCounts vt (emIn vt s).prior v
      return (v, f)) = (s.trainable.mapM fun v => do
      let f ← EM.zeroCounts s.prior v
      return (v, f)).map (List.map fun p : V × Factor (storeOf vt : StoreImpl V S (Fl K)) => (p.1, inStore vt p.2)) := by
    refine mapM_same fun v _ => ?_
    show (VEM.zeroCounts vt (modelIn vt s.prior) v >>= _) = _
    rw [zeroCounts_in]
    cases EM.zeroCounts s.prior v <;> rfl
  rw [e0]
  cases s.trainable.mapM (fun v => do
      let f ← EM.zeroCounts s.prior v
      return (v, f)) with
  | error e => rfl
  | ok p0 =>
    have key : ∀ (td : List V) (o : VEObj (Factor (storeOf vt : StoreImpl V S (Fl K))) (storeOf vt)) (l : List (V × Factor (storeOf vt : StoreImpl V S (Fl K)))), o.model = s.model →
        td.foldlM (VEM.countOne ch (emIn vt s) (p0.map fun p => (p.1, inStore vt p.2))) (l.map fun p => (p.1, inStore vt p.2)) =
          (td.foldlM (fun (st : VEObj (Factor (storeOf vt : StoreImpl V S (Fl K))) (storeOf vt) × List (V × Factor (storeOf vt : StoreImpl V S (Fl K)))) v => do
            let oc ← obsCounts s.model.graph s.data v
            let pa ← s.prior.getParents [v]
            let f0 ← Dict.get p0 v
            let q ← oc.foldlM (EM.addCounts ch v pa) (st.1, f0)
            return (q.1, st.2 ++ [(v, q.2)])) (o, l)).map fun q : VEObj (Factor (storeOf vt : StoreImpl V S (Fl K))) (storeOf vt) × List (V × Factor (storeOf vt : StoreImpl V S (Fl K))) => q.2.map fun p : V × Factor (storeOf vt : StoreImpl V S (Fl K)) => (p.1, inStore vt p.2) := by
      intro td
      induction td with
      | nil => intro o l _; rfl
      | cons v td ih =>
        intro o l ho
        rw [List.foldlM_cons, List.foldlM_cons, VEM.countOne]
        show ((obsCounts s.model.graph s.data v >>= _) >>= _) = Except.map _ ((obsCounts s.model.graph s.data v >>= _) >>= _)
        cases obsCounts s.model.graph s.data v with
        | error e => rfl
        | ok oc =>
          show ((s.prior.getParents [v] >>= _) >>= _) = Except.map _ ((s.prior.getParents [v] >>= _) >>= _)
          cases s.prior.getParents [v] with
          | error e => rfl
          | ok pa =>
            show ((Dict.get (p0.map fun p => (p.1, inStore vt p.2)) v >>= _) >>= _) = Except.map _ ((Dict.get p0 v >>= _) >>= _)
            rw [get_in]
            cases Dict.get p0 v with
            | error e => rfl
            | ok f0 =>
              show ((oc.foldlM (VEM.addCounts ch (modelIn vt s.model) v pa) (inStore vt f0) >>= _) >>= _) = Except.map _ ((oc.foldlM (EM.addCounts ch v pa) (o, f0) >>= _) >>= _)
              obtain ⟨h1, h2⟩ := addCounts_in ch s.model v pa oc o f0 ho
              rw [h1]
              cases hq : oc.foldlM (EM.addCounts ch v pa) (o, f0) with
              | error e => rfl
              | ok q =>
                have := ih q.1 (l ++ [(v, q.2)]) (h2 q hq)
                rw [List.map_append] at this
                exact this
    have := key (EM.todo ch s) (VEObj.new s.model) [] rfl
    show (EM.todo ch s).foldlM _ _ = Except.map _ ((EM.todo ch s).foldlM _ _ >>= _)
    refine this.trans ?_
    cases List.foldlM (m := Py) _ _ (EM.todo ch s) <;> rfl

theorem maximization_in (l : List (V × Factor (storeOf vt : StoreImpl V S (Fl K)))) :
    VEM.maximization (l.map fun p => (p.1, inStore vt p.2)) = (EM.maximization l).map (List.map fun p => (p.1, inStore vt p.2)) := by
  rw [VEM.maximization, EM.maximization, mapM_map']
  refine mapM_same fun p _ => ?_
  show ((inStore vt p.2).marginalize [p.1] >>= _) = Except.map _ (p.2.marginalize [p.1] >>= _)
  rw [VFactor.marginalize_same]
  cases p.2.marginalize [p.1] with
  | error e => rfl
  | ok g =>
    show ((inStore vt p.2).divide (inStore vt g) >>= _) = Except.map _ (p.2.divide g >>= _)
    rw [VFactor.divide, VFactor.binary_same]
    cases p.2.divide g <;> rfl

theorem updateModel_in (m : DagModel (Factor (storeOf vt : StoreImpl V S (Fl K))) V S) (l : List (V × Factor (storeOf vt : StoreImpl V S (Fl K)))) :
    VEM.updateModel (modelIn vt m) (l.map fun p => (p.1, inStore vt p.2)) = (EM.updateModel m l).map (modelIn vt) := by
  rw [VEM.updateModel, EM.updateModel]
  have hk : Dict.keys (l.map fun p => (p.1, inStore vt p.2)) = Dict.keys l := by simp [Dict.keys, Function.comp_def]
  rw [hk]
  have hg : ∀ v, Dict.get (modelIn vt m).factors v = (Dict.get m.factors v).map (Option.map (inStore vt)) := by
    intro v
    show Dict.get (m.factors.map fun p => (p.1, p.2.map (inStore vt))) v = _
    induction m.factors with
    | nil => rfl
    | cons p p0 ih =>
      obtain ⟨w, f⟩ := p
      by_cases h : w = v
      · subst h; simp [Dict.get, Dict.get?, Except.map]
      · simpa [Dict.get, Dict.get?, h] using ih
  have e0 : ((modelIn vt m).graph.nodes.filter fun v => v ∉ Dict.keys l).mapM (fun v => do
      let f ← Dict.get (modelIn vt m).factors v
      return (v, f)) = ((m.graph.nodes.filter fun v => v ∉ Dict.keys l).mapM fun v => do
      let f ← Dict.get m.factors v
      return (v, f)).map (List.map fun p : V × Option (Factor (storeOf vt : StoreImpl V S (Fl K))) => (p.1, p.2.map (inStore vt))) := by
    refine mapM_same fun v _ => ?_
    rw [hg]
    cases Dict.get m.factors v <;> rfl
  rw [e0]
  cases (m.graph.nodes.filter fun v => v ∉ Dict.keys l).mapM (fun v => do
      let f ← Dict.get m.factors v
      return (v, f)) with
  | error e => rfl
  | ok rest =>
    have := ofDict_in m.graph (l.map (fun p => (p.1, some p.2)) ++ rest) false
    rw [List.map_append, List.map_map] at this
    show DagModel.ofDict m.graph (List.map _ (List.map _ l) ++ _) false = _
    rw [List.map_map]
    exact this

theorem update_in (ch : Choices V) (s : EM (storeOf vt : StoreImpl V S (Fl K))) : VEM.update vt ch (emIn vt s) = (EM.update ch s).map (emIn vt) := by
  rw [VEM.update, EM.update, expectation_in]
  cases EM.expectation ch s with
  | error e => rfl
  | ok counts =>
    show (VEM.maximization (counts.map fun p => (p.1, inStore vt p.2)) >>= _) = Except.map _ (EM.maximization counts >>= _)
    rw [maximization_in]
    cases EM.maximization counts with
    | error e => rfl
    | ok new =>
      show (VEM.updateModel (modelIn vt s.model) (new.map fun p => (p.1, inStore vt p.2)) >>= _) = Except.map _ (EM.updateModel s.model new >>= _)
      rw [updateModel_in]
      cases EM.updateModel s.model new <;> rfl

end

end Verif
