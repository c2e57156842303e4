import Verif.Learn.EMScm
import Verif.Model.SetAll

/-!
# Expectation maximisation on causal models is that on networks: helper lemmas
-/

set_option linter.unusedSectionVars false
set_option linter.unusedSimpArgs false

namespace Verif

variable {V S K : Type} [DecidableEq V] [DecidableEq S] [Field K] [LinearOrder K]
  {I : StoreImpl V S (Fl K)} {L : LabelStore V S}

theorem Except.map_bind' {A B C : Type} (x : Py A) (f : A → Py B) (g : B → C) :
    (x >>= f).map g = x >>= fun a => (f a).map g := by cases x <;> rfl

theorem Except.bind_map' {A B C : Type} (x : Py A) (f : A → B) (g : B → Py C) :
    x.map f >>= g = x >>= fun a => g (f a) := by cases x <;> rfl

/-- Slots of a dictionary of multinomial factors -/
def liftSlot (p : V × Option (Factor I)) : V × Option (AnyFactor I L) := (p.1, p.2.map AnyFactor.multi)

/-- A network as the base of a causal model -/
def liftModel (L : LabelStore V S) (b : DagModel (Factor I) V S) : DagModel (AnyFactor I L) V S :=
  ⟨b.graph, b.factors.map liftSlot, b.domains, b.check⟩

theorem get?_lift (d : List (V × Option (Factor I))) (v : V) :
    Dict.get? (d.map (liftSlot (L := L))) v = (Dict.get? d v).map fun o => o.map AnyFactor.multi := by
  induction d with
  | nil => rfl
  | cons p d ih =>
    rw [List.map_cons, Dict.get?, Dict.get?]
    by_cases h : p.1 = v
    · simp [liftSlot, h]
    · have : ¬ (liftSlot (L := L) p).1 = v := h
      simp [liftSlot, h] at ih ⊢
      exact ih

theorem foldlM_sim {σ τ X Y : Type} {ψ : σ → τ} {φ : X → Y} {f : σ → X → Py σ} {f' : τ → Y → Py τ}
    (h : ∀ s x, f' (ψ s) (φ x) = (f s x).map ψ) (xs : List X) (s : σ) :
    (xs.map φ).foldlM f' (ψ s) = (xs.foldlM f s).map ψ := by
  induction xs generalizing s with
  | nil => rfl
  | cons x xs ih =>
    rw [List.map_cons, List.foldlM_cons, List.foldlM_cons, h]
    cases f s x with
    | error e => rfl
    | ok s => exact ih s

theorem keys_lift (d : List (V × Option (Factor I))) : Dict.keys (d.map (liftSlot (L := L))) = Dict.keys d := by
  simp [Dict.keys, liftSlot, Function.comp_def]

theorem set_lift (d : List (V × Option (Factor I))) (v : V) (o : Option (Factor I)) :
    Dict.set (d.map (liftSlot (L := L))) v (o.map AnyFactor.multi) = (Dict.set d v o).map liftSlot := by
  rw [Dict.set, Dict.set, keys_lift]
  split
  · rw [List.map_map, List.map_map]
    refine List.map_congr_left fun p _ => ?_
    by_cases h : p.1 = v
    · simp [Function.comp, liftSlot, h]
    · simp [Function.comp, liftSlot, h]
  · rw [List.map_append]; rfl

theorem checkFactor_lift (b : DagModel (Factor I) V S) (v : V) (f : Factor I) :
    (liftModel L b).checkFactor v (AnyFactor.multi f) = b.checkFactor v f := rfl

theorem setFactor_lift (b : DagModel (Factor I) V S) (v : V) (o : Option (Factor I)) :
    (liftModel L b).setFactor v (o.map AnyFactor.multi) = (b.setFactor v o).map (liftModel L) := by
  have hset := fun o => set_lift (L := L) b.factors v o
  cases o with
  | none =>
    have hn := hset none
    simp only [Option.map_none] at hn
    rw [Option.map_none, DagModel.setFactor, DagModel.setFactor]
    show (if b.check = true then _ else match Dict.get? b.domains v with
      | some (some _) => _ | _ => _) = _
    split
    · rfl
    · rcases Dict.get? b.domains v with _ | _ | st
      · rfl
      · rfl
      · show Except.ok (DagModel.mk b.graph (Dict.set (b.factors.map liftSlot) v none) b.domains b.check) = _
        rw [hn]; rfl
  | some f =>
    have hn := hset (some f)
    simp only [Option.map_some] at hn
    rw [Option.map_some, DagModel.setFactor, DagModel.setFactor]
    have key : ∀ x : Py PUnit, ((x >>= fun _ => match Dict.get? b.domains v with
        | some (some _) => Except.ok { (liftModel L b) with factors := Dict.set (b.factors.map liftSlot) v (some (.multi f)) }
        | _ => do
          let st ← Dict.get (FactorLike.dom f) v
          .ok { (liftModel L b) with factors := Dict.set (b.factors.map liftSlot) v (some (.multi f)), domains := Dict.set b.domains v (some st) })
          : Py (DagModel (AnyFactor I L) V S)) = ((x >>= fun _ => match Dict.get? b.domains v with
        | some (some _) => Except.ok { b with factors := Dict.set b.factors v (some f) }
        | _ => do
          let st ← Dict.get (FactorLike.dom f) v
          .ok { b with factors := Dict.set b.factors v (some f), domains := Dict.set b.domains v (some st) })
          : Py (DagModel (Factor I) V S)).map (liftModel L) := by
      intro x
      rw [hn]
      cases x with
      | error e => rfl
      | ok u =>
        rw [py_ok_bind, py_ok_bind]
        rcases Dict.get? b.domains v with _ | _ | st
        · cases Dict.get (FactorLike.dom f) v <;> rfl
        · cases Dict.get (FactorLike.dom f) v <;> rfl
        · rfl
    by_cases hk : b.check = true
    · rw [if_pos (show (liftModel L b).check = true from hk), if_pos hk]
      exact key (b.checkFactor v f)
    · rw [if_neg (show ¬ (liftModel L b).check = true from hk), if_neg hk]
      exact key (.ok ())

theorem init_lift (g : DiGraph V) (check : Bool) :
    (DagModel.init g check : Py (DagModel (AnyFactor I L) V S)) = (DagModel.init g check : Py (DagModel (Factor I) V S)).map (liftModel L) := by
  rw [DagModel.init, DagModel.init]
  split
  · rfl
  · simp [Except.map, liftModel, liftSlot, Function.comp_def]

/-- The causal model over a network -/
def liftScm (L : LabelStore V S) (endo : List V) (cast : Bool) (b : DagModel (Factor I) V S) : SCM I L := ⟨liftModel L b, endo, cast⟩

theorem setFactor_liftScm (endo : List V) (cast : Bool) (b : DagModel (Factor I) V S) (v : V) (o : Option (Factor I))
    (h : b.check = true → v ∈ endo → ∃ f, o = some f ∧ f.isDegenerate = .ok true) :
    (liftScm L endo cast b).setFactor v (o.map AnyFactor.multi) = (b.setFactor v o).map (liftScm L endo cast) := by
  have hp : SCM.prepare endo cast b.check v (o.map (AnyFactor.multi (L := L))) = .ok (o.map AnyFactor.multi) := by
    by_cases hc : v ∈ endo ∧ b.check = true
    · obtain ⟨f, rfl, hf⟩ := h hc.2 hc.1
      rw [Option.map_some, SCM.prepare, if_pos hc, hf]; rfl
    · cases o with
      | none => rw [Option.map_none, SCM.prepare, if_neg hc]
      | some f => rw [Option.map_some, SCM.prepare, if_neg hc]
  rw [SCM.setFactor]
  show (SCM.prepare endo cast b.check v _ >>= fun f => (liftModel L b).setFactor v f >>= fun b' => pure _) = _
  rw [hp, py_ok_bind, setFactor_lift]
  cases b.setFactor v o <;> rfl

theorem setFactor_check {F : Type} [FactorLike F V S] {b b' : DagModel F V S} {v : V} {o : Option F} (h : b.setFactor v o = .ok b') :
    b'.check = b.check := by
  cases o with
  | none =>
    rw [DagModel.setFactor] at h
    split at h
    · cases h
    · split at h
      · injection h with h; rw [← h]
      · cases h
  | some f => exact (DagModel.setFactor_step h).check

theorem foldlM_scm (endo : List V) (cast check : Bool) (fs : List (V × Option (Factor I)))
    (h : check = true → ∀ p ∈ fs, p.1 ∈ endo → ∃ f, p.2 = some f ∧ f.isDegenerate = .ok true) (b : DagModel (Factor I) V S)
    (hb : b.check = check) :
    (fs.map liftSlot).foldlM (fun (m : SCM I L) p => m.setFactor p.1 p.2) (liftScm L endo cast b) =
      (b.setFactorsDict fs).map (liftScm L endo cast) := by
  rw [DagModel.setFactorsDict]
  induction fs generalizing b with
  | nil => rfl
  | cons p fs ih =>
    rw [List.map_cons, List.foldlM_cons, List.foldlM_cons]
    have := setFactor_liftScm (L := L) endo cast b p.1 p.2 (fun hc hv => h (hb ▸ hc) p List.mem_cons_self hv)
    show ((liftScm L endo cast b).setFactor p.1 (p.2.map AnyFactor.multi) >>= _) = _
    rw [this]
    cases hs : b.setFactor p.1 p.2 with
    | error e => rfl
    | ok b1 => exact ih (fun hc q hq => h hc q (List.mem_cons_of_mem _ hq)) b1 ((setFactor_check hs).trans hb)

/-- Building a causal model from multinomial factors is building the network. -/
theorem scmOfDict_lift (g : DiGraph V) (fs : List (V × Option (Factor I))) {endo : List V} (he : SCM.endoOr g (some endo) = endo) (cast check : Bool)
    (h : check = true → ∀ p ∈ fs, p.1 ∈ endo → ∃ f, p.2 = some f ∧ f.isDegenerate = .ok true) :
    SCM.ofDict g (fs.map (liftSlot (L := L))) (some endo) cast check = (DagModel.ofDict g fs check).map (liftScm L endo cast) := by
  rw [SCM.ofDict, SCM.init, DagModel.ofDict, init_lift, he]
  cases hi : (DagModel.init g check : Py (DagModel (Factor I) V S)) with
  | error e => rfl
  | ok b =>
    have hb : b.check = check := by
      rw [DagModel.init] at hi
      split at hi
      · cases hi
      · injection hi with hi; rw [← hi]
    exact foldlM_scm endo cast check fs h b hb

/-! ### Queries -/

theorem mapM_map' {X Y Z : Type} (f : Y → Py Z) (g : X → Y) (l : List X) : (l.map g).mapM f = l.mapM fun x => f (g x) := by
  induction l with
  | nil => rfl
  | cons x l ih => rw [List.map_cons, List.mapM_cons, List.mapM_cons, ih]

theorem mapM_congr' {X Z : Type} {f g : X → Py Z} {l : List X} (h : ∀ x ∈ l, f x = g x) : l.mapM f = l.mapM g := by
  induction l with
  | nil => rfl
  | cons x l ih => rw [List.mapM_cons, List.mapM_cons, ih fun y hy => h y (List.mem_cons_of_mem _ hy), h x List.mem_cons_self]

theorem minimalize_lift (b : DagModel (Factor I) V S) (T : List V) (ev : Obs V S) :
    minimalize (I := I) (liftModel L b) T ev = minimalize (I := I) b T ev := by
  rw [minimalize, minimalize]
  show (List.mapM _ ((b.factors.map (liftSlot (L := L))).filter _) >>= _) = (List.mapM _ (b.factors.filter _) >>= _)
  rw [List.filter_map, mapM_map']
  congr 1
  refine mapM_congr' fun p _ => ?_
  obtain ⟨v, _ | f⟩ := p <;> rfl

/-- The inference object over a causal model -/
def VEObj.lift (L : LabelStore V S) (o : VEObj (Factor I) I) : VEObj (AnyFactor I L) I :=
  ⟨liftModel L o.model, o.target, o.evidence, o.infModel, o.compiled⟩

theorem compile_lift (o : VEObj (Factor I) I) (T : List V) (ev : Option (Obs V S)) :
    (o.lift L).compile T ev = ((o.compile T ev).1.lift L, (o.compile T ev).2) := by
  rw [VEObj.compile.eq_def, VEObj.compile.eq_def]
  by_cases h1 : T.Nodup
  · rw [if_neg (not_not.2 h1), if_neg (not_not.2 h1)]
    cases ev with
    | none => rfl
    | some ev =>
      by_cases h2 : ∀ t ∈ T, t ∉ Dict.keys ev
      · simp only [if_neg (not_not.2 h2)]
        by_cases h3 : ∀ v ∈ T ++ Dict.keys ev, v ∈ o.model.graph.nodes
        · rw [if_neg (not_not.2 h3), if_neg (not_not.2 (show ∀ v ∈ T ++ Dict.keys ev, v ∈ (VEObj.lift L o).model.graph.nodes from h3))]
          rw [show minimalize (I := I) (VEObj.lift L o).model T ev = minimalize (I := I) o.model T ev from minimalize_lift _ _ _]
          cases minimalize (I := I) o.model T ev <;> rfl
        · rw [if_pos h3, if_pos (show ¬ ∀ v ∈ T ++ Dict.keys ev, v ∈ (VEObj.lift L o).model.graph.nodes from h3)]
          rfl
      · simp only [if_pos h2]
  · rw [if_pos h1, if_pos h1]

theorem query_lift (ch : Choices V) (o : VEObj (Factor I) I) (T : List V) (ev : Option (Obs V S)) :
    (o.lift L).query ch T ev = ((o.query ch T ev).1.lift L, (o.query ch T ev).2) := by
  rw [VEObj.query, VEObj.query, compile_lift]
  rcases o.compile T (some (ev.getD [])) with ⟨o', e | u⟩ <;> rfl

/-! ### The steps of the algorithm -/

namespace ScmEM

/-- The object over causal models -/
def lift (L : LabelStore V S) (endo : List V) (cast : Bool) (s : EM I) : ScmEM I L :=
  ⟨liftScm L endo cast s.prior, liftScm L endo cast s.model, s.trainable, s.converged, s.data⟩

variable {endo : List V} {cast : Bool}

theorem zeroCounts_lift (m : DagModel (Factor I) V S) (v : V) : zeroCounts (liftScm L endo cast m) v = EM.zeroCounts m v := rfl

theorem addCounts_lift (ch : Choices V) (v : V) (pa : List V) (st : VEObj (Factor I) I × Factor I) (oc : Obs V S × ℕ) :
    addCounts ch v pa (st.1.lift L, st.2) oc = (EM.addCounts ch v pa st oc).map fun r => (r.1.lift L, r.2) := by
  rw [addCounts, EM.addCounts, query_lift]
  simp only
  rcases st.1.query ch ((v :: pa).filter fun x => x ∉ Dict.keys oc.1) (some oc.1) with ⟨o', e | p⟩
  · rfl
  · simp only [py_ok_bind]
    cases p.timesScalar (.fin (oc.2 : K)) with
    | error e => rfl
    | ok e =>
      simp only [py_ok_bind]
      cases st.2.addition e <;> rfl

theorem expectation_lift (ch : Choices V) (s : EM I) : expectation ch (lift L endo cast s) = EM.expectation ch s := by
  rw [expectation, EM.expectation]
  show (s.trainable.mapM _ >>= _) = (s.trainable.mapM _ >>= _)
  congr 1
  funext p0
  have key := foldlM_sim (ψ := fun r : VEObj (Factor I) I × List (V × Factor I) => (r.1.lift L, r.2)) (φ := id)
    (f := fun st v => do
      let oc ← obsCounts s.model.graph s.data v
      let pa ← s.prior.getParents [v]
      let f0 ← Dict.get p0 v
      let q ← oc.foldlM (EM.addCounts ch v pa) (st.1, f0)
      return (q.1, st.2 ++ [(v, q.2)]))
    (f' := countOne ch (lift L endo cast s) p0) (fun st v => by
      rw [countOne]
      show (obsCounts s.model.graph s.data v >>= fun oc => s.prior.getParents [v] >>= _) = _
      cases obsCounts s.model.graph s.data v with
      | error e => rfl
      | ok oc =>
        rw [py_ok_bind, py_ok_bind]
        cases s.prior.getParents [v] with
        | error e => rfl
        | ok pa =>
          rw [py_ok_bind, py_ok_bind]
          simp only [id]
          cases Dict.get p0 v with
          | error e => rfl
          | ok f0 =>
            rw [py_ok_bind, py_ok_bind]
            have := foldlM_sim (ψ := fun r : VEObj (Factor I) I × Factor I => (r.1.lift L, r.2)) (φ := id)
              (f := EM.addCounts ch v pa) (f' := addCounts ch v pa) (fun st oc => addCounts_lift ch v pa st oc) oc (st.1, f0)
            rw [List.map_id] at this
            rw [this]
            cases oc.foldlM (EM.addCounts ch v pa) (st.1, f0) <;> rfl) (EM.todo ch s) (VEObj.new s.model, [])
  rw [List.map_id] at key
  show ((EM.todo ch s).foldlM (countOne ch (lift L endo cast s) p0) ((VEObj.new s.model).lift L, []) >>= _) = _
  rw [key, Except.bind_map']

theorem updateModel_lift (he : endo ≠ []) (m : DagModel (Factor I) V S) (new : List (V × Factor I)) :
    updateModel (liftScm L endo cast m) new = (EM.updateModel m new).map (liftScm L endo cast) := by
  rw [updateModel, EM.updateModel, Except.map_bind']
  have h1 : (((liftScm L endo cast m).base.graph.nodes.filter fun v => v ∉ Dict.keys new).mapM fun v => do
      let f ← Dict.get (liftScm L endo cast m).base.factors v
      return (v, f)) = ((m.graph.nodes.filter fun v => v ∉ Dict.keys new).mapM fun v => do
      let f ← Dict.get m.factors v
      return (v, f)).map (List.map liftSlot) := by
    show (List.mapM _ (m.graph.nodes.filter fun v => v ∉ Dict.keys new)) = _
    generalize m.graph.nodes.filter (fun v => v ∉ Dict.keys new) = l
    induction l with
    | nil => rfl
    | cons v l ih =>
      rw [List.mapM_cons, List.mapM_cons, ih]
      have hg : Dict.get (liftScm L endo cast m).base.factors v = (Dict.get m.factors v).map fun o => o.map AnyFactor.multi := by
        show Dict.get (m.factors.map (liftSlot (L := L))) v = _
        rw [Dict.get, Dict.get, get?_lift]
        cases Dict.get? m.factors v <;> rfl
      rw [hg]
      cases Dict.get m.factors v with
      | error e => rfl
      | ok o =>
        cases (l.mapM fun v => do
          let f ← Dict.get m.factors v
          return (v, f)) <;> rfl
  rw [h1, Except.bind_map']
  congr 1
  funext rest
  have h2 : new.map (fun p => (p.1, some (AnyFactor.multi (L := L) p.2))) ++ rest.map liftSlot =
      (new.map (fun p => (p.1, some p.2)) ++ rest).map liftSlot := by
    rw [List.map_append, List.map_map]; rfl
  rw [h2]
  exact scmOfDict_lift m.graph _ (endo := endo) (by rw [SCM.endoOr, if_neg he]) cast false (fun h => by cases h)

theorem update_lift (he : endo ≠ []) (ch : Choices V) (s : EM I) :
    update ch (lift L endo cast s) = (EM.update ch s).map (lift L endo cast) := by
  rw [update, EM.update, expectation_lift]
  cases EM.expectation ch s with
  | error e => rfl
  | ok counts =>
    rw [py_ok_bind, py_ok_bind]
    cases EM.maximization counts with
    | error e => rfl
    | ok new =>
      rw [py_ok_bind, py_ok_bind]
      show (updateModel (liftScm L endo cast s.model) new >>= _) = _
      rw [updateModel_lift he]
      cases EM.updateModel s.model new <;> rfl

theorem tableOf_lift (m : DagModel (Factor I) V S) (v : V) : tableOf (liftScm L endo cast m) v = EM.tableOf m v := by
  rw [tableOf, EM.tableOf]
  show (Dict.get (m.factors.map (liftSlot (L := L))) v >>= _) = _
  rw [Dict.get, Dict.get, get?_lift]
  rcases Dict.get? m.factors v with _ | _ | f <;> rfl

theorem fromEnd_map {X Y : Type} (f : X → Y) (l : List X) (k : Nat) : EM.fromEnd (l.map f) k = (EM.fromEnd l k).map f := by
  rw [EM.fromEnd, EM.fromEnd, List.length_map, List.getElem?_map]
  split
  · cases l[l.length - k]? <;> rfl
  · rfl

theorem stop_lift (kl : List (Fl K) → List (Fl K) → Bool) (s : EM I) (evo : List (DagModel (Factor I) V S)) :
    stop kl (lift L endo cast s) (evo.map (liftScm L endo cast)) = (EM.stop kl s evo).map fun r => (lift L endo cast r.1, r.2) := by
  rw [stop, EM.stop]
  have key : ∀ (vs conv : List V), vs.foldlM (stopOne kl (evo.map (liftScm L endo cast))) conv = vs.foldlM (fun conv v =>
      if v ∈ conv then (.ok conv : Py (List V)) else do
        let m1 ← EM.fromEnd evo 2
        let p ← EM.tableOf m1 v
        let m2 ← EM.fromEnd evo 1
        let q ← EM.tableOf m2 v
        if kl p q then return conv ++ [v] else return conv) conv := by
    intro vs
    induction vs with
    | nil => intro _; rfl
    | cons v vs ih =>
      intro conv
      rw [List.foldlM_cons, List.foldlM_cons]
      have : stopOne kl (evo.map (liftScm L endo cast)) conv v = (if v ∈ conv then (.ok conv : Py (List V)) else do
          let m1 ← EM.fromEnd evo 2
          let p ← EM.tableOf m1 v
          let m2 ← EM.fromEnd evo 1
          let q ← EM.tableOf m2 v
          if kl p q then return conv ++ [v] else return conv) := by
        rw [stopOne, fromEnd_map, fromEnd_map]
        simp only [Except.bind_map', tableOf_lift]
      rw [this]
      congr 1
      funext conv'
      exact ih conv'
  show (s.trainable.foldlM (stopOne kl (evo.map (liftScm L endo cast))) s.converged >>= _) = _
  rw [key, Except.map_bind']
  rfl

/-! ### Runs -/

/-- The learning object over causal models -/
def liftObj (L : LabelStore V S) (endo : List V) (cast : Bool) (s : LObj (EM I) (DagModel (Factor I) V S)) : LObj (ScmEM I L) (SCM I L) :=
  ⟨lift L endo cast s.core, s.evo.map (List.map (liftScm L endo cast))⟩

variable {ch : Choices V} {kl : List (Fl K) → List (Fl K) → Bool}

theorem evolution_lift (s : LObj (EM I) (DagModel (Factor I) V S)) :
    (learner ch kl).evolution (liftObj L endo cast s) = ((EM.learner ch kl).evolution s).map (liftScm L endo cast) := by
  rw [Learner.evolution, Learner.evolution, liftObj]
  cases s.evo <;> rfl

theorem step_lift (he : endo ≠ []) (s : LObj (EM I) (DagModel (Factor I) V S)) :
    (learner ch kl).step (liftObj L endo cast s) = ((EM.learner ch kl).step s).map (liftObj L endo cast) := by
  rw [Learner.step, Learner.step]
  show (update ch (lift L endo cast s.core) >>= _) = Except.map _ (EM.update ch s.core >>= _)
  rw [update_lift he]
  cases EM.update ch s.core with
  | error e => rfl
  | ok c =>
    show Except.ok ((learner ch kl).record (liftObj L endo cast { s with core := c })) = .ok (liftObj L endo cast _)
    rw [Learner.record, evolution_lift, Learner.record]
    simp [liftObj, EM.learner, learner, lift]

theorem check_lift (s : LObj (EM I) (DagModel (Factor I) V S)) :
    (learner ch kl).check (liftObj L endo cast s) = ((EM.learner ch kl).check s).map fun r => (liftObj L endo cast r.1, r.2) := by
  rw [Learner.check, Learner.check, evolution_lift]
  show (stop kl (lift L endo cast s.core) _ >>= _) = Except.map _ (EM.stop kl s.core _ >>= _)
  rw [stop_lift]
  cases EM.stop kl s.core ((EM.learner ch kl).evolution s) <;> rfl

theorem loopF_lift (he : endo ≠ []) (n : ℕ) (s : LObj (EM I) (DagModel (Factor I) V S)) :
    (learner ch kl).loopF n (liftObj L endo cast s) = ((EM.learner ch kl).loopF n s).map (liftObj L endo cast) := by
  induction n generalizing s with
  | zero => rfl
  | succ n ih =>
    rw [Learner.loopF, Learner.loopF, step_lift he]
    cases (EM.learner ch kl).step s with
    | error e => rfl
    | ok s1 =>
      show ((learner ch kl).check (liftObj L endo cast s1) >>= _) = Except.map _ ((EM.learner ch kl).check s1 >>= _)
      rw [check_lift]
      cases (EM.learner ch kl).check s1 with
      | error e => rfl
      | ok r =>
        obtain ⟨s2, b⟩ := r
        cases b with
        | true => rfl
        | false => exact ih s2

theorem runF_lift (he : endo ≠ []) (s : LObj (EM I) (DagModel (Factor I) V S)) (d : Frame V S) (n : ℕ)
    (hd : ∀ p ∈ s.core.prior.factors, p.1 ∈ endo → ∃ f, p.2 = some f ∧ f.isDegenerate = .ok true) :
    (learner ch kl).runF d n (liftObj L endo cast s) = ((EM.learner ch kl).runF d n s).map (liftObj L endo cast) := by
  rw [Learner.runF, Learner.runF]
  show (init (lift L endo cast s.core) d >>= _) = Except.map _ (EM.init s.core d >>= _)
  have hi : init (lift L endo cast s.core) d = (EM.init s.core d).map (lift L endo cast) := by
    rw [init, EM.init]
    show (SCM.copy (liftScm L endo cast s.core.prior) >>= _) = _
    rw [SCM.copy]
    show (SCM.ofDict s.core.prior.graph (s.core.prior.factors.map liftSlot) (some endo) cast true >>= _) = _
    rw [scmOfDict_lift s.core.prior.graph _ (by rw [SCM.endoOr, if_neg he]) cast true fun _ => hd]
    cases (DagModel.ofDict s.core.prior.graph s.core.prior.factors true : Py (DagModel (Factor I) V S)) <;> rfl
  rw [hi]
  cases EM.init s.core d with
  | error e => rfl
  | ok c => exact loopF_lift he n ⟨c, s.evo⟩

end ScmEM

end Verif
