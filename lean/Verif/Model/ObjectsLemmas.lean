import Verif.Model.Objects

/-!
# Models as objects and models as values: helper lemmas
-/

set_option linter.unusedSectionVars false
set_option linter.unusedSimpArgs false

namespace Verif

/-- Both raise the same error, or both return and the results are related. -/
def SameRun {A B : Type} (R : A → B → Prop) : Py A → Py B → Prop
  | .ok a, .ok b => R a b
  | .error e, .error e' => e = e'
  | _, _ => False

namespace SameRun
variable {A B A' B' : Type} {R : A → B → Prop} {Q : A' → B' → Prop}

theorem bind {x : Py A} {y : Py B} {f : A → Py A'} {g : B → Py B'} (h : SameRun R x y) (hf : ∀ a b, R a b → SameRun Q (f a) (g b)) :
    SameRun Q (x >>= f) (y >>= g) := by
  cases x with
  | error e => cases y with
    | error e' => exact h
    | ok b => exact h.elim
  | ok a => cases y with
    | error e' => exact h.elim
    | ok b => exact hf a b h

theorem mono {R' : A → B → Prop} {x : Py A} {y : Py B} (h : SameRun R x y) (hr : ∀ a b, R a b → R' a b) : SameRun R' x y := by
  cases x with
  | error e => cases y with
    | error e' => exact h
    | ok b => exact h.elim
  | ok a => cases y with
    | error e' => exact h.elim
    | ok b => exact hr a b h

theorem same (x : Py A) : SameRun (fun a b => a = b ∧ x = .ok a) x x := by
  cases x with
  | error e => exact rfl
  | ok a => exact ⟨rfl, rfl⟩

theorem pure {a : A} {b : B} (h : R a b) : SameRun R (Except.pure a) (Except.pure b) := h

end SameRun

theorem Dict.map_set {κ ν μ : Type} [DecidableEq κ] (φ : ν → μ) (d : List (κ × ν)) (k : κ) (x : ν) :
    (Dict.set d k x).map (fun p => (p.1, φ p.2)) = Dict.set (d.map fun p => (p.1, φ p.2)) k (φ x) := by
  have hk : Dict.keys (d.map fun p => (p.1, φ p.2)) = Dict.keys d := by simp [Dict.keys, Function.comp_def]
  unfold Dict.set
  rw [hk]
  split
  · rw [List.map_map, List.map_map]
    refine List.map_congr_left fun p _ => ?_
    simp only [Function.comp]
    split <;> rfl
  · simp

theorem Dict.keys_set_nodup {κ ν : Type} [DecidableEq κ] {d : List (κ × ν)} (h : (Dict.keys d).Nodup) (k : κ) (x : ν) : (Dict.keys (Dict.set d k x)).Nodup := by
  by_cases hk : k ∈ Dict.keys d
  · rw [Dict.keys_set_of_mem hk]; exact h
  · rw [Dict.set, if_neg hk, Dict.keys_append]
    refine List.nodup_append.2 ⟨h, by simp, fun a ha b hb => ?_⟩
    simp only [Dict.keys_cons, Dict.keys_nil, List.mem_singleton] at hb
    rintro rfl; exact hk (hb ▸ ha)

theorem Dict.mem_set {κ ν : Type} [DecidableEq κ] {d : List (κ × ν)} {k : κ} {x : ν} {p : κ × ν} (h : p ∈ Dict.set d k x) : p ∈ d ∨ p = (k, x) := by
  unfold Dict.set at h
  split at h
  · obtain ⟨q, hq, rfl⟩ := List.mem_map.1 h
    split
    · rename_i he; right; rw [he]
    · exact .inl hq
  · simpa using h

/-- A successful `set_factor` changes the entry and the states. -/
theorem DagModel.setFactor_fields {F V S : Type} [DecidableEq V] [DecidableEq S] [FactorLike F V S] {m b : DagModel F V S} {v : V} {f : Option F}
    (h : m.setFactor v f = .ok b) : b = ⟨m.graph, Dict.set m.factors v f, b.domains, m.check⟩ := by
  cases f with
  | none =>
    simp only [DagModel.setFactor] at h
    split at h
    · cases h
    · split at h
      · injection h with h; subst h; rfl
      · cases h
  | some f =>
    obtain ⟨h1, h2, h3, _, _⟩ := setFactor_step h
    cases b; simp only at h1 h2 h3; subst h1; subst h2; subst h3; rfl

variable {V S α : Type} [DecidableEq V] [DecidableEq S] [Inhabited α] [Zero α] [One α] [DecidableEq α]
  {I : StoreImpl V S α} {L : LabelStore V S}

/-- All references are to factors that exist. -/
def Known (h : FacHeap I L) (r : Option Nat) : Prop := ∀ a, r = some a → a < h.length

theorem Known.append {h : FacHeap I L} {r : Option Nat} (hr : Known h r) (l : FacHeap I L) : Known (h ++ l) r := fun a ha => by
  have := hr a ha; rw [List.length_append]; omega

theorem slotVal_append {h : FacHeap I L} {r : Option Nat} (hr : Known h r) (l : FacHeap I L) : slotVal (h ++ l) r = slotVal h r := by
  cases r with
  | none => rfl
  | some a => exact List.getElem?_append_left (hr a rfl)

theorem slotVal_new (h : FacHeap I L) (f : AnyFactor I L) : slotVal (h ++ [f]) (some h.length) = some f := by
  simp [slotVal]

/-- The references of a model are good, and no variable has two entries. -/
structure ObjModel.Fits (h : FacHeap I L) (m : ObjModel V S) : Prop where
  known : ∀ p ∈ m.factors, Known h p.2
  nodup : (Dict.keys m.factors).Nodup
  graph : m.graph.nodes.Nodup

namespace ObjModel

theorem Fits.append {h : FacHeap I L} {m : ObjModel V S} (hm : m.Fits h) (l : FacHeap I L) : m.Fits (h ++ l) :=
  ⟨fun p hp => (hm.known p hp).append l, hm.nodup, hm.graph⟩

theorem Fits.read_append {h : FacHeap I L} {m : ObjModel V S} (hm : m.Fits h) (l : FacHeap I L) : m.read (h ++ l) = m.read h := by
  have : (m.factors.map fun p => (p.1, slotVal (h ++ l) p.2)) = m.factors.map fun p => (p.1, slotVal h p.2) :=
    List.map_congr_left fun p hp => by rw [slotVal_append (hm.known p hp)]
  rw [read, read, this]

theorem Fits.ext {h h' : FacHeap I L} {m : ObjModel V S} (hm : m.Fits h) (he : h <+: h') : m.Fits h' ∧ m.read h' = m.read h := by
  obtain ⟨l, rfl⟩ := he
  exact ⟨hm.append l, hm.read_append l⟩

theorem known_ext {h h' : FacHeap I L} {r : Option Nat} (hr : Known h r) (he : h <+: h') : Known h' r ∧ slotVal h' r = slotVal h r := by
  obtain ⟨l, rfl⟩ := he
  exact ⟨hr.append l, slotVal_append hr l⟩

/-- What `set_factor` enters: the same object, or a new one that was made from a deterministic factor. -/
theorem keep_spec {h : FacHeap I L} {r : Option Nat} (hr : Known h r) {endo : List V} {cast check : Bool} {v : V} {f : Option (AnyFactor I L)}
    (hp : SCM.prepare endo cast check v (slotVal h r) = .ok f) :
    h <+: (keep h r (slotVal h r) f).1 ∧ Known (keep h r (slotVal h r) f).1 (keep h r (slotVal h r) f).2 ∧
      slotVal (keep h r (slotVal h r) f).1 (keep h r (slotVal h r) f).2 = f ∧
      ((keep h r (slotVal h r) f).2 = r ∨ (keep h r (slotVal h r) f).2 = some h.length) ∧
      (∀ g, slotVal h r = some (.multi g) → (keep h r (slotVal h r) f).2 = r) := by
  rcases ho : slotVal h r with _ | (g | g)
  · rw [ho] at hp
    have : f = none := by
      simp only [SCM.prepare] at hp
      split at hp
      · cases hp
      · injection hp with hp; exact hp.symm
    subst this
    exact ⟨List.prefix_refl _, hr, ho, .inl rfl, by simp⟩
  · rw [ho] at hp
    have : f = some (.multi g) := by
      simp only [SCM.prepare] at hp
      split at hp
      · cases hd : g.isDegenerate with
        | error e => rw [hd] at hp; cases hp
        | ok b =>
          rw [hd] at hp
          simp only [py_ok_bind] at hp
          split at hp
          · injection hp with hp; exact hp.symm
          · cases hp
      · injection hp with hp; exact hp.symm
    subst this
    exact ⟨List.prefix_refl _, hr, ho, .inl rfl, fun _ _ => rfl⟩
  · rw [ho] at hp
    simp only [SCM.prepare] at hp
    split at hp
    · cases hd : g.toMultinomial I with
      | error e => rw [hd] at hp; cases hp
      | ok b =>
        rw [hd] at hp
        injection hp with hp
        subst hp
        refine ⟨⟨_, rfl⟩, ?_, slotVal_new h _, .inr rfl, by simp⟩
        intro a ha
        injection ha with ha
        subst ha
        simp [keep]
    · injection hp with hp
      subst hp
      exact ⟨List.prefix_refl _, hr, ho, .inl rfl, by simp⟩

/-- After an operation that made `q` from the heap `h` -/
def Made (h : FacHeap I L) (q : FacHeap I L × ObjModel V S) (m' : SCM I L) : Prop := h <+: q.1 ∧ q.2.Fits q.1 ∧ q.2.read q.1 = m'

theorem setFactor_same {h : FacHeap I L} {m : ObjModel V S} (hm : m.Fits h) {r : Option Nat} (hr : Known h r) (v : V) :
    SameRun (Made h) (m.setFactor h v r) ((m.read h).setFactor v (slotVal h r)) := by
  unfold setFactor SCM.setFactor
  refine SameRun.bind (SameRun.same _) ?_
  rintro f _ ⟨rfl, hf⟩
  refine SameRun.bind (SameRun.same _) ?_
  rintro b _ ⟨rfl, hb⟩
  obtain ⟨k1, k2, k3, _, _⟩ := keep_spec hr hf
  refine SameRun.pure ⟨k1, ⟨fun p hp => ?_, Dict.keys_set_nodup hm.nodup _ _, hm.graph⟩, ?_⟩
  · rcases Dict.mem_set hp with hp | rfl
    · exact (known_ext (hm.known p hp) k1).1
    · exact k2
  · have hb' := DagModel.setFactor_fields hb
    rw [read]
    simp only
    rw [Dict.map_set (slotVal (keep h r (slotVal h r) f).1), k3]
    have : (m.factors.map fun p => (p.1, slotVal (keep h r (slotVal h r) f).1 p.2)) = m.factors.map fun p => (p.1, slotVal h p.2) :=
      List.map_congr_left fun p hp => by rw [(known_ext (hm.known p hp) k1).2]
    rw [this, hb']
    rfl

theorem init_same (h : FacHeap I L) {g : DiGraph V} (hg : g.nodes.Nodup) (endo : Option (List V)) (cast check : Bool) :
    SameRun (fun m m' => m.Fits h ∧ m.read h = m') (init (S := S) g endo cast check) (SCM.init (I := I) (L := L) g endo cast check) := by
  unfold init SCM.init DagModel.init
  split
  · rfl
  · refine ⟨⟨fun p hp => ?_, ?_, hg⟩, ?_⟩
    · obtain ⟨x, _, rfl⟩ := List.mem_map.1 hp
      exact fun a ha => by cases ha
    · simpa [Dict.keys, Function.comp_def] using hg
    · simp only [read, List.map_map]
      rfl

theorem foldDict_same {h0 : FacHeap I L} (rs : List (V × Option Nat)) (hr : ∀ p ∈ rs, Known h0 p.2) {h : FacHeap I L} (he : h0 <+: h) {m : ObjModel V S}
    (hm : m.Fits h) : SameRun (Made h) (rs.foldlM setEntry (h, m))
      ((rs.map fun p => (p.1, slotVal h0 p.2)).foldlM (fun (m : SCM I L) p => m.setFactor p.1 p.2) (m.read h)) := by
  induction rs generalizing h m with
  | nil => exact ⟨List.prefix_refl _, hm, rfl⟩
  | cons p rs ih =>
    rw [List.map_cons, List.foldlM_cons, List.foldlM_cons]
    have k := known_ext (hr p List.mem_cons_self) he
    have := setFactor_same hm k.1 p.1
    rw [k.2] at this
    refine SameRun.bind this ?_
    rintro q _ ⟨q1, q2, rfl⟩
    exact (ih (fun p hp => hr p (List.mem_cons_of_mem _ hp)) (he.trans q1) q2).mono fun a b hab => ⟨q1.trans hab.1, hab.2⟩

theorem ofDict_same {h0 h : FacHeap I L} {rs : List (V × Option Nat)} (hr : ∀ p ∈ rs, Known h0 p.2) (he : h0 <+: h) {g : DiGraph V} (hg : g.nodes.Nodup)
    (endo : Option (List V)) (cast check : Bool) :
    SameRun (Made h) (ofDict h g rs endo cast check) (SCM.ofDict g (rs.map fun p => (p.1, slotVal h0 p.2)) endo cast check) := by
  unfold ofDict SCM.ofDict
  refine SameRun.bind (init_same h hg endo cast check) ?_
  rintro m _ ⟨hm, rfl⟩
  exact foldDict_same rs hr he hm

theorem foldList_same {h0 : FacHeap I L} (rs : List (Option Nat)) (hr : ∀ r ∈ rs, Known h0 r) {h : FacHeap I L} (he : h0 <+: h) {m : ObjModel V S}
    (hm : m.Fits h) : SameRun (Made h) (rs.foldlM setOne (h, m)) ((rs.map (slotVal h0)).foldlM SCM.setOne (m.read h)) := by
  induction rs generalizing h m with
  | nil => exact ⟨List.prefix_refl _, hm, rfl⟩
  | cons r rs ih =>
    rw [List.map_cons, List.foldlM_cons, List.foldlM_cons]
    have k := known_ext (hr r List.mem_cons_self) he
    have : SameRun (Made h) (setOne (h, m) r) ((m.read h).setOne (slotVal h0 r)) := by
      unfold setOne SCM.setOne
      rw [← k.2]
      cases ho : slotVal h r with
      | none => rfl
      | some f =>
        refine SameRun.bind (SameRun.same _) ?_
        rintro v _ ⟨rfl, _⟩
        have := setFactor_same hm k.1 v
        rw [ho] at this
        exact this
    refine SameRun.bind this ?_
    rintro q _ ⟨q1, q2, rfl⟩
    exact (ih (fun p hp => hr p (List.mem_cons_of_mem _ hp)) (he.trans q1) q2).mono fun a b hab => ⟨q1.trans hab.1, hab.2⟩

theorem ofList_same {h0 h : FacHeap I L} {rs : List (Option Nat)} (hr : ∀ r ∈ rs, Known h0 r) (he : h0 <+: h) {g : DiGraph V} (hg : g.nodes.Nodup)
    (endo : Option (List V)) (cast check : Bool) :
    SameRun (Made h) (ofList h g rs endo cast check) (SCM.ofList g (rs.map (slotVal h0)) endo cast check) := by
  unfold ofList SCM.ofList
  refine SameRun.bind (init_same h hg endo cast check) ?_
  rintro m _ ⟨hm, rfl⟩
  exact foldList_same rs hr he hm

theorem collect_same {A B C D : Type} {f : FacHeap I L → A → Py (FacHeap I L × B)} {g : C → Py D} (rd : FacHeap I L → A → C) (see : FacHeap I L → B → D)
    (okA : FacHeap I L → A → Prop) (okB : FacHeap I L → B → Prop)
    (hA : ∀ h h' a, okA h a → h <+: h' → okA h' a ∧ rd h' a = rd h a) (hB : ∀ h h' b, okB h b → h <+: h' → okB h' b ∧ see h' b = see h b)
    (hf : ∀ h a, okA h a → SameRun (fun q d => h <+: q.1 ∧ okB q.1 q.2 ∧ see q.1 q.2 = d) (f h a) (g (rd h a)))
    (l : List A) (h : FacHeap I L) (hl : ∀ a ∈ l, okA h a) :
    SameRun (fun q ds => h <+: q.1 ∧ (∀ b ∈ q.2, okB q.1 b) ∧ q.2.map (see q.1) = ds) (collect f h l) ((l.map (rd h)).mapM g) := by
  induction l generalizing h with
  | nil => exact ⟨List.prefix_refl _, by simp, rfl⟩
  | cons a l ih =>
    rw [List.map_cons, List.mapM_cons, collect]
    refine SameRun.bind (hf h a (hl a List.mem_cons_self)) ?_
    rintro q _ ⟨q1, q2, rfl⟩
    have hl' : ∀ a ∈ l, okA q.1 a := fun a ha => (hA _ _ a (hl a (List.mem_cons_of_mem _ ha)) q1).1
    have hr : l.map (rd h) = l.map (rd q.1) := List.map_congr_left fun a ha => (hA _ _ a (hl a (List.mem_cons_of_mem _ ha)) q1).2.symm
    rw [hr]
    refine SameRun.bind (ih q.1 hl') ?_
    rintro w _ ⟨w1, w2, rfl⟩
    have hb := hB _ _ q.2 q2 w1
    refine SameRun.pure ⟨q1.trans w1, fun b hb' => ?_, ?_⟩
    · rcases List.mem_cons.1 hb' with rfl | hb'
      · exact hb.1
      · exact w2 b hb'
    · simp only [List.map_cons, hb.2]

theorem keys_collect_do {obs : Obs V S} (l : List (V × Option Nat)) {h : FacHeap I L} {q : FacHeap I L × List (V × Option Nat)}
    (hq : collect (doEntry obs) h l = .ok q) : Dict.keys q.2 = Dict.keys l := by
  induction l generalizing h q with
  | nil => injection hq with hq; subst hq; rfl
  | cons p l ih =>
    rw [collect] at hq
    cases h1 : doEntry obs h p with
    | error e => rw [h1] at hq; cases hq
    | ok x =>
      rw [h1, py_ok_bind] at hq
      cases h2 : collect (doEntry obs) x.1 l with
      | error e => rw [h2] at hq; cases hq
      | ok w =>
        rw [h2] at hq
        injection hq with hq
        subst hq
        have hx : x.2.1 = p.1 := by
          unfold doEntry at h1
          split at h1
          · injection h1 with h1; subst h1; rfl
          · split at h1
            · cases h1
            · rename_i s _ _ f _
              cases hc : f.constant s with
              | error e => rw [hc] at h1; cases h1
              | ok r => rw [hc] at h1; injection h1 with h1; subst h1; rfl
        simp only [Dict.keys_cons, hx, ih h2]

theorem pair_ext (h h' : FacHeap I L) (p : V × Option Nat) (hp : Known h p.2) (he : h <+: h') :
    Known h' p.2 ∧ (p.1, slotVal h' p.2) = (p.1, slotVal h p.2) := ⟨(known_ext hp he).1, by rw [(known_ext hp he).2]⟩

theorem intervention_same {h : FacHeap I L} {m : ObjModel V S} (hm : m.Fits h) (obs : Obs V S) :
    SameRun (Made h) (m.intervention h obs) ((m.read h).intervention obs) := by
  unfold intervention SCM.intervention
  refine SameRun.bind (collect_same (I := I) (L := L) (fun h p => (p.1, slotVal h p.2)) (fun h p => (p.1, slotVal h p.2)) (fun h p => Known h p.2) (fun h p => Known h p.2)
    pair_ext pair_ext
    (fun h p hp => ?_) m.factors h hm.known) ?_
  · unfold doEntry SCM.doFactor
    simp only
    cases Dict.get? obs p.1 with
    | none => exact ⟨List.prefix_refl _, hp, rfl⟩
    | some s =>
      simp only
      cases ho : slotVal h p.2 with
      | none => rfl
      | some f =>
        refine SameRun.bind (SameRun.same _) ?_
        rintro r _ ⟨rfl, _⟩
        refine ⟨⟨_, rfl⟩, ?_, by rw [slotVal_new]⟩
        intro a ha; injection ha with ha; subst ha; simp
  · rintro q _ ⟨q1, q2, rfl⟩
    exact (ofDict_same q2 (List.prefix_refl _) (by simpa [DiGraph.removeIngoing] using hm.graph) _ _ _).mono fun a b hab => ⟨q1.trans hab.1, hab.2⟩

theorem renameVars_same {h : FacHeap I L} {m : ObjModel V S} (hm : m.Fits h) (mapping : List (V × V)) :
    SameRun (Made h) (m.renameVars h mapping) ((m.read h).renameVars mapping) := by
  unfold renameVars SCM.renameVars
  refine SameRun.bind (collect_same (I := I) (L := L) (fun h p => (p.1, slotVal h p.2)) slotVal (fun h p => Known h p.2) Known
    pair_ext (fun _ _ _ ha he => known_ext ha he)
    (fun h p hp => ?_) m.factors h hm.known) ?_
  · unfold renameEntry SCM.renameSlot
    simp only
    cases ho : slotVal h p.2 with
    | none => rfl
    | some f =>
      refine SameRun.bind (SameRun.same _) ?_
      rintro r _ ⟨rfl, _⟩
      refine ⟨⟨_, rfl⟩, ?_, slotVal_new _ _⟩
      intro a ha; injection ha with ha; subst ha; simp
  · rintro q _ ⟨q1, q2, rfl⟩
    refine SameRun.bind (SameRun.same _) ?_
    rintro e _ ⟨rfl, _⟩
    exact (ofList_same q2 (List.prefix_refl _) (List.nodup_reverse.2 (List.nodup_dedup _)) _ _ _).mono fun a b hab => ⟨q1.trans hab.1, hab.2⟩

theorem copy_same {h : FacHeap I L} {m : ObjModel V S} (hm : m.Fits h) : SameRun (Made h) (m.copy h) (m.read h).copy :=
  ofDict_same hm.known (List.prefix_refl _) hm.graph _ _ _

theorem toMultinomial_same {h : FacHeap I L} {m : ObjModel V S} (hm : m.Fits h) : SameRun (Made h) (m.toMultinomial h) (m.read h).toMultinomial :=
  ofDict_same hm.known (List.prefix_refl _) hm.graph _ _ _

end ObjModel

namespace ObjState

/-- The objects look like the values. -/
def Shows (st : ObjState I L) (ms : List (SCM I L)) : Prop := (∀ m ∈ st.models, m.Fits st.heap) ∧ st.values = ms

theorem pick_same {st : ObjState I L} (hst : ∀ m ∈ st.models, m.Fits st.heap) (i : Nat) :
    SameRun (fun m m' => st.models[i]? = some m ∧ m.Fits st.heap ∧ m.read st.heap = m') (pick st.models i) (pick st.values i) := by
  unfold pick values
  rw [List.getElem?_map]
  cases h : st.models[i]? with
  | none => rfl
  | some m => exact ⟨rfl, hst m (List.mem_of_getElem? h), rfl⟩

theorem values_ext {st : ObjState I L} (hst : ∀ m ∈ st.models, m.Fits st.heap) {h' : FacHeap I L} (he : st.heap <+: h') :
    (∀ m ∈ st.models, m.Fits h') ∧ st.models.map (ObjModel.read h') = st.values :=
  ⟨fun m hm => ((hst m hm).ext he).1, List.map_congr_left fun m hm => ((hst m hm).ext he).2⟩

theorem made_shows {st : ObjState I L} (hst : ∀ m ∈ st.models, m.Fits st.heap) {h : FacHeap I L} (he : st.heap <+: h) {q : FacHeap I L × ObjModel V S}
    {m' : SCM I L} (hq : ObjModel.Made h q m') : Shows (st.made q) (st.values ++ [m']) := by
  obtain ⟨q1, q2, rfl⟩ := hq
  obtain ⟨e1, e2⟩ := values_ext hst (he.trans q1)
  refine ⟨fun m hm => ?_, ?_⟩
  · rcases List.mem_append.1 hm with hm | hm
    · exact e1 m hm
    · rw [List.mem_singleton.1 hm]; exact q2
  · unfold values made
    simp only [List.map_append, List.map_cons, List.map_nil, e2]
    rfl

theorem set_shows {st : ObjState I L} (hst : ∀ m ∈ st.models, m.Fits st.heap) {h : FacHeap I L} (he : st.heap <+: h) {q : FacHeap I L × ObjModel V S}
    {m' : SCM I L} (hq : ObjModel.Made h q m') (i : Nat) : Shows ⟨q.1, st.models.set i q.2⟩ (st.values.set i m') := by
  obtain ⟨q1, q2, rfl⟩ := hq
  obtain ⟨e1, e2⟩ := values_ext hst (he.trans q1)
  refine ⟨fun m hm => ?_, ?_⟩
  · rcases List.mem_or_eq_of_mem_set hm with hm | rfl
    · exact e1 m hm
    · exact q2
  · unfold values
    simp only [List.map_set, e2]
    rfl

/-- Only the entry of `v` in the `i`-th model refers to its factor. -/
def Alone (st : ObjState I L) (i : Nat) (v : V) : Prop :=
  ∀ m a, st.models[i]? = some m → Dict.get? m.factors v = some (some a) →
    ∀ j m', st.models[j]? = some m' → ∀ w, Dict.get? m'.factors w = some (some a) → j = i ∧ w = v

theorem get_same {h : FacHeap I L} {m : ObjModel V S} (v : V) :
    SameRun (fun r f => Dict.get? m.factors v = some r ∧ f = slotVal h r) (Dict.get m.factors v) (Dict.get (m.read h).base.factors v) := by
  have : Dict.get? (m.read h).base.factors v = (Dict.get? m.factors v).map (slotVal h) := by
    rw [ObjModel.read]
    rw [Dict.get?_map_snd m.factors (fun _ r => slotVal h r) v]
  unfold Dict.get
  rw [this]
  cases hd : Dict.get? m.factors v with
  | none => rfl
  | some r => exact ⟨rfl, rfl⟩

theorem slotVal_set {h : FacHeap I L} {a : Nat} (ha : a < h.length) (f : AnyFactor I L) (r : Option Nat) :
    slotVal (h.set a f) r = if r = some a then some f else slotVal h r := by
  cases r with
  | none => rfl
  | some b =>
    unfold slotVal
    simp only [Option.bind_some, Option.some.injEq]
    rw [List.getElem?_set]
    by_cases hb : a = b
    · subst hb; simp [ha]
    · rw [if_neg hb, if_neg (Ne.symm hb)]

theorem read_set_ne {h : FacHeap I L} {a : Nat} (ha : a < h.length) (f : AnyFactor I L) {m : ObjModel V S} (hn : ∀ p ∈ m.factors, p.2 ≠ some a) :
    m.read (h.set a f) = m.read h := by
  have : (m.factors.map fun p => (p.1, slotVal (h.set a f) p.2)) = m.factors.map fun p => (p.1, slotVal h p.2) :=
    List.map_congr_left fun p hp => by rw [slotVal_set ha, if_neg (hn p hp)]
  rw [ObjModel.read, ObjModel.read, this]

theorem read_set {h : FacHeap I L} {a : Nat} (ha : a < h.length) (f : AnyFactor I L) {m : ObjModel V S} (hd : (Dict.keys m.factors).Nodup) {v : V}
    (hv : Dict.get? m.factors v = some (some a)) (hn : ∀ p ∈ m.factors, p.2 = some a → p.1 = v) :
    m.read (h.set a f) = { m.read h with base := { (m.read h).base with factors := Dict.set (m.read h).base.factors v (some f) } } := by
  have : (m.factors.map fun p => (p.1, slotVal (h.set a f) p.2)) = Dict.set (m.factors.map fun p => (p.1, slotVal h p.2)) v (some f) := by
    have hk : v ∈ Dict.keys (m.factors.map fun p => (p.1, slotVal h p.2)) := by
      have : Dict.keys (m.factors.map fun p => (p.1, slotVal h p.2)) = Dict.keys m.factors := by simp [Dict.keys, Function.comp_def]
      rw [this]
      exact Dict.mem_keys_of_mem (Dict.mem_of_get? hv)
    rw [Dict.set, if_pos hk, List.map_map]
    refine List.map_congr_left fun p hp => ?_
    simp only [Function.comp]
    rw [slotVal_set ha]
    by_cases hp1 : p.1 = v
    · have : p.2 = some a := by
        have h1 := Dict.get?_of_mem hd hp
        rw [hp1, hv] at h1
        injection h1 with h1; exact h1.symm
      rw [if_pos this, if_pos hp1]
    · rw [if_neg hp1, if_neg fun hc => hp1 (hn p hp hc)]
  rw [ObjModel.read, this]
  rfl

theorem step_same {st : ObjState I L} (hst : ∀ m ∈ st.models, m.Fits st.heap) (op : ModelOp I L)
    (hn : ∀ g fs endo cast check, op = .new g fs endo cast check → g.nodes.Nodup)
    (hw : ∀ i v u, op = .write i v u → st.Alone i v) : SameRun Shows (st.step op) (modelStep st.values op) := by
  cases op with
  | new g fs endo cast check =>
    unfold step modelStep
    have hg := hn g fs endo cast check rfl
    have key := ObjModel.ofDict_same (S := S) (h0 := st.heap ++ fs.map Prod.snd) (rs := fs.zipIdx.map fun p => (p.1.1, some (st.heap.length + p.2)))
      (fun p hp a ha => by
        obtain ⟨q, hq, rfl⟩ := List.mem_map.1 hp
        injection ha with ha
        have := List.mem_zipIdx' hq
        have := this.1
        rw [List.length_append, List.length_map]
        omega) (List.prefix_refl _) hg endo cast check
    have hr : ((fs.zipIdx.map fun p => (p.1.1, some (st.heap.length + p.2))).map fun p => (p.1, slotVal (st.heap ++ fs.map Prod.snd) p.2)) =
        fs.map fun p => (p.1, some p.2) := by
      rw [List.map_map]
      have : fs.map (fun p => (p.1, some p.2)) = fs.zipIdx.map fun q => (q.1.1, some q.1.2) := by
        conv_lhs => rw [← List.zipIdx_map_fst 0 fs, List.map_map]
        rfl
      rw [this]
      refine List.map_congr_left fun q hq => ?_
      have hq' := List.mem_zipIdx' hq
      simp only [Function.comp, slotVal, Option.bind_some]
      rw [List.getElem?_append_right (by omega), Nat.add_sub_cancel_left, List.getElem?_map, List.getElem?_eq_getElem hq'.1, ← hq'.2]
      rfl
    rw [hr] at key
    refine SameRun.bind key ?_
    rintro q m' hq
    exact made_shows hst ⟨_, rfl⟩ hq
  | copy i =>
    refine SameRun.bind (pick_same hst i) ?_
    rintro m _ ⟨_, hm, rfl⟩
    refine SameRun.bind (ObjModel.copy_same hm) ?_
    exact fun q m' hq => made_shows hst (List.prefix_refl _) hq
  | toMultinomial i =>
    refine SameRun.bind (pick_same hst i) ?_
    rintro m _ ⟨_, hm, rfl⟩
    refine SameRun.bind (ObjModel.toMultinomial_same hm) ?_
    exact fun q m' hq => made_shows hst (List.prefix_refl _) hq
  | intervention i obs =>
    refine SameRun.bind (pick_same hst i) ?_
    rintro m _ ⟨_, hm, rfl⟩
    refine SameRun.bind (ObjModel.intervention_same hm obs) ?_
    exact fun q m' hq => made_shows hst (List.prefix_refl _) hq
  | rename i mapping =>
    refine SameRun.bind (pick_same hst i) ?_
    rintro m _ ⟨_, hm, rfl⟩
    refine SameRun.bind (ObjModel.renameVars_same hm mapping) ?_
    exact fun q m' hq => made_shows hst (List.prefix_refl _) hq
  | setNew i v f =>
    refine SameRun.bind (pick_same hst i) ?_
    rintro m _ ⟨_, hm, rfl⟩
    have key := ObjModel.setFactor_same (hm.append [f]) (r := some st.heap.length) (fun a ha => by
      injection ha with ha; subst ha; simp) v
    rw [slotVal_new, hm.read_append] at key
    refine SameRun.bind key ?_
    exact fun q m' hq => set_shows hst ⟨_, rfl⟩ hq i
  | setFrom i v j w =>
    refine SameRun.bind (pick_same hst i) ?_
    rintro m _ ⟨_, hm, rfl⟩
    refine SameRun.bind (pick_same hst j) ?_
    rintro m2 _ ⟨_, hm2, rfl⟩
    refine SameRun.bind (get_same w) ?_
    rintro r _ ⟨hr, rfl⟩
    refine SameRun.bind (ObjModel.setFactor_same hm (hm2.known _ (Dict.mem_of_get? hr)) v) ?_
    exact fun q m' hq => set_shows hst (List.prefix_refl _) hq i
  | write i v u =>
    refine SameRun.bind (pick_same hst i) ?_
    rintro m _ ⟨hi, hm, rfl⟩
    refine SameRun.bind (get_same v) ?_
    rintro r _ ⟨hr, rfl⟩
    cases r with
    | none => rfl
    | some a =>
      have ha := hm.known _ (Dict.mem_of_get? hr) a rfl
      have hs : slotVal st.heap (some a) = some st.heap[a] := List.getElem?_eq_getElem ha
      have hpk : pick st.heap a = .ok st.heap[a] := by rw [pick, List.getElem?_eq_getElem ha]
      simp only [hs, hpk, py_ok_bind]
      refine SameRun.bind (SameRun.same _) ?_
      rintro f _ ⟨rfl, _⟩
      have hal := hw i v u rfl m a hi hr
      refine SameRun.pure ⟨fun m' hm' => ?_, ?_⟩
      · have := hst m' hm'
        exact ⟨fun p hp b hb => by rw [List.length_set]; exact this.known p hp b hb, this.nodup, this.graph⟩
      · unfold values
        simp only
        refine List.ext_getElem? fun j => ?_
        rw [List.getElem?_map, List.getElem?_set, List.length_map]
        by_cases hj : i = j
        · subst hj
          have hlt : i < st.models.length := (List.getElem?_eq_some_iff.1 hi).1
          rw [if_pos rfl, if_pos hlt, hi, Option.map_some]
          exact congrArg some (read_set ha f hm.nodup hr fun p hp hpa => (hal i m hi p.1 (by rw [Dict.get?_of_mem hm.nodup hp, hpa])).2)
        · rw [if_neg hj, List.getElem?_map]
          cases hmj : st.models[j]? with
          | none => rfl
          | some m' =>
            have hm' := hst m' (List.mem_of_getElem? hmj)
            exact congrArg some (read_set_ne ha f fun p hp hpa => hj (hal j m' hmj p.1 (by rw [Dict.get?_of_mem hm'.nodup hp, hpa])).1.symm)

end ObjState
/-! ### Where the entries refer to -/

namespace ObjModel

theorem setFactor_entry {m : ObjModel V S} {h : FacHeap I L} {v : V} {r : Option Nat} (hr : Known h r) {q : FacHeap I L × ObjModel V S}
    (hq : m.setFactor h v r = .ok q) : h <+: q.1 ∧ ∃ r', q.2.factors = Dict.set m.factors v r' ∧ (r' = r ∨ r' = some h.length) ∧
      ∀ g, slotVal h r = some (.multi g) → r' = r := by
  unfold setFactor at hq
  cases hp : SCM.prepare m.endogenous m.cast m.check v (slotVal h r) with
  | error e => rw [hp] at hq; cases hq
  | ok f =>
    rw [hp, py_ok_bind] at hq
    cases hb : (m.read h).base.setFactor v f with
    | error e => rw [hb] at hq; cases hq
    | ok b =>
      rw [hb, py_ok_bind] at hq
      injection hq with hq
      subst hq
      obtain ⟨k1, _, _, k4, k5⟩ := keep_spec hr hp
      exact ⟨k1, _, rfl, k4, k5⟩

theorem fold_entry {h0 : FacHeap I L} (rs : List (V × Option Nat)) (hr : ∀ p ∈ rs, Known h0 p.2) (hn : (Dict.keys rs).Nodup) {h : FacHeap I L} (he : h0 <+: h)
    {m : ObjModel V S} {q : FacHeap I L × ObjModel V S} (hq : rs.foldlM setEntry (h, m) = .ok q) :
    h <+: q.1 ∧ (∀ v, v ∉ Dict.keys rs → Dict.get? q.2.factors v = Dict.get? m.factors v) ∧
      ∀ p ∈ rs, ∃ r', Dict.get? q.2.factors p.1 = some r' ∧ (r' = p.2 ∨ ∃ a, r' = some a ∧ h0.length ≤ a) ∧
        ∀ g, slotVal h0 p.2 = some (.multi g) → r' = p.2 := by
  induction rs generalizing h m with
  | nil => injection hq with hq; subst hq; exact ⟨List.prefix_refl _, fun _ _ => rfl, by simp⟩
  | cons p rs ih =>
    rw [List.foldlM_cons] at hq
    cases hs : setEntry (h, m) p with
    | error e => rw [hs] at hq; cases hq
    | ok x =>
      rw [hs, py_ok_bind] at hq
      have k := known_ext (hr p List.mem_cons_self) he
      obtain ⟨x1, r', x2, x3, x4⟩ := setFactor_entry k.1 hs
      rw [Dict.keys_cons, List.nodup_cons] at hn
      obtain ⟨y1, y2, y3⟩ := ih (fun p hp => hr p (List.mem_cons_of_mem _ hp)) hn.2 (he.trans x1) hq
      refine ⟨x1.trans y1, fun v hv => ?_, fun p' hp' => ?_⟩
      · rw [Dict.keys_cons, List.mem_cons, not_or] at hv
        rw [y2 v hv.2, x2, Dict.get?_set, if_neg hv.1]
      · rcases List.mem_cons.1 hp' with rfl | hp'
        · refine ⟨r', by rw [y2 _ hn.1, x2, Dict.get?_set, if_pos rfl], ?_, fun g hg => x4 g (by rw [k.2]; exact hg)⟩
          rcases x3 with x3 | x3
          · exact .inl x3
          · exact .inr ⟨_, x3, he.length_le⟩
        · exact y3 p' hp'

theorem ofDict_entry {h : FacHeap I L} {g : DiGraph V} {rs : List (V × Option Nat)} (hr : ∀ p ∈ rs, Known h p.2) (hn : (Dict.keys rs).Nodup)
    {endo : Option (List V)} {cast check : Bool} {q : FacHeap I L × ObjModel V S} (hq : ofDict h g rs endo cast check = .ok q) :
    ∀ p ∈ rs, ∃ r', Dict.get? q.2.factors p.1 = some r' ∧ (r' = p.2 ∨ ∃ a, r' = some a ∧ h.length ≤ a) ∧
        ∀ g, slotVal h p.2 = some (.multi g) → r' = p.2 := by
  unfold ofDict at hq
  cases hi : init (S := S) g endo cast check with
  | error e => rw [hi] at hq; cases hq
  | ok m =>
    rw [hi, py_ok_bind] at hq
    exact (fold_entry rs hr hn (List.prefix_refl _) hq).2.2

/-- All references are to factors that were made later than the first `n`. -/
def From (n : Nat) (m : ObjModel V S) : Prop := ∀ p ∈ m.factors, ∀ a, p.2 = some a → n ≤ a

theorem foldList_from {n : Nat} (rs : List (Option Nat)) {h : FacHeap I L} (hr : ∀ r ∈ rs, Known h r) (hf : ∀ r ∈ rs, ∀ a, r = some a → n ≤ a) (hn : n ≤ h.length)
    {m : ObjModel V S} (hm : m.From n) {q : FacHeap I L × ObjModel V S} (hq : rs.foldlM setOne (h, m) = .ok q) : q.2.From n := by
  induction rs generalizing h m with
  | nil => injection hq with hq; subst hq; exact hm
  | cons r rs ih =>
    rw [List.foldlM_cons] at hq
    cases hs : setOne (h, m) r with
    | error e => rw [hs] at hq; cases hq
    | ok x =>
      rw [hs, py_ok_bind] at hq
      have : ∃ v, m.setFactor h v r = .ok x := by
        unfold setOne at hs
        cases ho : slotVal h r with
        | none => simp only [ho] at hs; cases hs
        | some f =>
          simp only [ho] at hs
          cases hl : DagModel.leftOf f with
          | error e => rw [hl] at hs; cases hs
          | ok v => rw [hl, py_ok_bind] at hs; exact ⟨v, hs⟩
      obtain ⟨v, hv⟩ := this
      obtain ⟨x1, r', x2, x3, _⟩ := setFactor_entry (hr r List.mem_cons_self) hv
      refine ih (fun r hr' => (known_ext (hr r (List.mem_cons_of_mem _ hr')) x1).1) (fun r hr' => hf r (List.mem_cons_of_mem _ hr')) (hn.trans x1.length_le)
        (fun p hp a ha => ?_) hq
      rw [x2] at hp
      rcases Dict.mem_set hp with hp | rfl
      · exact hm p hp a ha
      · simp only at ha
        rcases x3 with x3 | x3
        · exact hf r List.mem_cons_self a (x3 ▸ ha)
        · rw [x3] at ha; injection ha with ha; subst ha; exact hn

theorem collect_do_entry {obs : Obs V S} (l : List (V × Option Nat)) {h0 h : FacHeap I L} (he : h0 <+: h) (hl : ∀ p ∈ l, Known h0 p.2)
    {q : FacHeap I L × List (V × Option Nat)} (hq : collect (doEntry obs) h l = .ok q) :
    h <+: q.1 ∧ ∀ p ∈ q.2, Known q.1 p.2 ∧ (p.1 ∉ Dict.keys obs → p ∈ l) ∧ (p.1 ∈ Dict.keys obs → ∃ a, p.2 = some a ∧ h0.length ≤ a) := by
  induction l generalizing h q with
  | nil => injection hq with hq; subst hq; exact ⟨List.prefix_refl _, by simp⟩
  | cons p l ih =>
    rw [collect] at hq
    cases h1 : doEntry obs h p with
    | error e => rw [h1] at hq; cases hq
    | ok x =>
      rw [h1, py_ok_bind] at hq
      cases h2 : collect (doEntry obs) x.1 l with
      | error e => rw [h2] at hq; cases hq
      | ok w =>
        rw [h2] at hq
        injection hq with hq
        subst hq
        have hx : h <+: x.1 ∧ Known x.1 x.2.2 ∧ (x.2.1 ∉ Dict.keys obs → x.2 = p) ∧ (x.2.1 ∈ Dict.keys obs → ∃ a, x.2.2 = some a ∧ h0.length ≤ a) := by
          unfold doEntry at h1
          cases hg : Dict.get? obs p.1 with
          | none =>
            simp only [hg] at h1
            injection h1 with h1; subst h1
            exact ⟨List.prefix_refl _, (known_ext (hl p List.mem_cons_self) he).1, fun _ => rfl, fun hc => absurd hc (Dict.get?_eq_none.1 hg)⟩
          | some s =>
            simp only [hg] at h1
            cases ho : slotVal h p.2 with
            | none => simp only [ho] at h1; cases h1
            | some f =>
              simp only [ho] at h1
              cases hc : f.constant s with
              | error e => rw [hc] at h1; cases h1
              | ok r =>
                rw [hc] at h1; injection h1 with h1; subst h1
                refine ⟨⟨_, rfl⟩, fun a ha => ?_, fun hn => absurd (Dict.mem_keys_of_mem (Dict.mem_of_get? hg)) hn, fun _ => ⟨_, rfl, he.length_le⟩⟩
                injection ha with ha; subst ha; simp
        obtain ⟨y1, y2⟩ := ih (he.trans hx.1) (fun p hp => hl p (List.mem_cons_of_mem _ hp)) h2
        refine ⟨hx.1.trans y1, fun p' hp' => ?_⟩
        rcases List.mem_cons.1 hp' with rfl | hp'
        · exact ⟨(known_ext hx.2.1 y1).1, fun hn => by rw [hx.2.2.1 hn]; exact List.mem_cons_self, hx.2.2.2⟩
        · obtain ⟨z1, z2, z3⟩ := y2 p' hp'
          exact ⟨z1, fun hn => List.mem_cons_of_mem _ (z2 hn), z3⟩

theorem collect_rename {mapping : List (V × V)} (l : List (V × Option Nat)) {n : Nat} {h : FacHeap I L} (hn : n ≤ h.length)
    {q : FacHeap I L × List (Option Nat)} (hq : collect (renameEntry mapping) h l = .ok q) :
    h <+: q.1 ∧ ∀ r ∈ q.2, Known q.1 r ∧ ∀ a, r = some a → n ≤ a := by
  induction l generalizing h q with
  | nil => injection hq with hq; subst hq; exact ⟨List.prefix_refl _, by simp⟩
  | cons p l ih =>
    rw [collect] at hq
    cases h1 : renameEntry mapping h p with
    | error e => rw [h1] at hq; cases hq
    | ok x =>
      rw [h1, py_ok_bind] at hq
      cases h2 : collect (renameEntry mapping) x.1 l with
      | error e => rw [h2] at hq; cases hq
      | ok w =>
        rw [h2] at hq
        injection hq with hq
        subst hq
        have hx : h <+: x.1 ∧ Known x.1 x.2 ∧ ∀ a, x.2 = some a → n ≤ a := by
          unfold renameEntry at h1
          cases ho : slotVal h p.2 with
          | none => simp only [ho] at h1; cases h1
          | some f =>
            simp only [ho] at h1
            cases hc : f.renameVars mapping with
            | error e => rw [hc] at h1; cases h1
            | ok r =>
              rw [hc] at h1; injection h1 with h1; subst h1
              refine ⟨⟨_, rfl⟩, fun a ha => ?_, fun a ha => ?_⟩ <;> injection ha with ha <;> subst ha
              · simp
              · exact hn
        obtain ⟨y1, y2⟩ := ih (hn.trans hx.1.length_le) h2
        refine ⟨hx.1.trans y1, fun r hr => ?_⟩
        rcases List.mem_cons.1 hr with rfl | hr
        · exact ⟨(known_ext hx.2.1 y1).1, hx.2.2⟩
        · exact y2 r hr

end ObjModel

namespace ObjState

/-- References stay good, whatever is written. -/
theorem step_fits {st st' : ObjState I L} (hst : ∀ m ∈ st.models, m.Fits st.heap) {op : ModelOp I L}
    (hn : ∀ g fs endo cast check, op = .new g fs endo cast check → g.nodes.Nodup) (h : st.step op = .ok st') : ∀ m ∈ st'.models, m.Fits st'.heap := by
  by_cases hw : ∃ i v u, op = .write i v u
  · obtain ⟨i, v, u, rfl⟩ := hw
    have : ∃ a f, st' = ⟨st.heap.set a f, st.models⟩ := by
      simp only [step] at h
      cases h1 : pick st.models i with
      | error e => rw [h1] at h; cases h
      | ok m =>
        rw [h1, py_ok_bind] at h
        cases h2 : Dict.get m.factors v with
        | error e => rw [h2] at h; cases h
        | ok r =>
          rw [h2, py_ok_bind] at h
          cases r with
          | none => cases h
          | some a =>
            simp only at h
            cases h3 : pick st.heap a with
            | error e => rw [h3] at h; cases h
            | ok f =>
              rw [h3, py_ok_bind] at h
              cases h4 : u f with
              | error e => rw [h4] at h; cases h
              | ok f' => rw [h4] at h; injection h with h; exact ⟨a, f', h.symm⟩
    obtain ⟨a, f, rfl⟩ := this
    exact fun m hm => ⟨fun p hp b hb => by rw [List.length_set]; exact (hst m hm).known p hp b hb, (hst m hm).nodup, (hst m hm).graph⟩
  · have := step_same hst op hn fun i v u h => absurd ⟨i, v, u, h⟩ hw
    rw [h] at this
    cases hv : modelStep st.values op with
    | error e => rw [hv] at this; exact this.elim
    | ok ms => rw [hv] at this; exact this.1

end ObjState

end Verif
