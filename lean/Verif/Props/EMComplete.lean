import Verif.Learn.EMRefused
import Verif.Props.LearningEx

/-!
# Expectation maximisation on observed variables (C97)
-/

set_option linter.unusedSectionVars false
set_option linter.unusedSimpArgs false

namespace Verif.Props
open Verif

section
variable {V S K : Type} [DecidableEq V] [DecidableEq S] [Nonempty S] [Field K] [LinearOrder K] {vt : VType}

local notation "II" => (storeOf vt : StoreImpl V S (Fl K))

/-- The record has a value for `v` and for each of its parents. -/
def FamilyObserved (B : BN V S K) (v : V) (r : Rec V S) : Prop := ∀ w ∈ v :: B.parents v, (Rec.val r w).isSome

/-- The observation that stands for such a record contains the whole family. -/
theorem family_filter {B : BN V S K} (hB : B.Valid) {g : DiGraph V} (hg : g.WF) (hn : g.nodes = B.nodes)
    (hp : ∀ v ∈ B.nodes, ∀ p, p ∈ B.parents v ↔ (p, v) ∈ g.edges) {cols : List V} (hc : cols.Nodup) {v : V} (hv : v ∈ B.nodes)
    {r : Rec V S} (hk : Dict.keys r = cols) (hr : FamilyObserved B v r) :
    ∀ w ∈ v :: B.parents v, w ∈ Dict.keys (dsepFilter g v r) := by
  intro w hw
  obtain ⟨s, hs⟩ := Option.isSome_iff_exists.1 (hr w hw)
  have hwc : w ∈ cols := by
    rw [← hk]
    by_contra hc
    rw [Rec.val, Dict.get?_eq_none.2 hc] at hs
    cases hs
  refine Dict.mem_keys_of_mem (p := (w, s)) ((mem_dsepFilter hc hk).2 ⟨hwc, ?_, hs⟩)
  rcases List.mem_cons.1 hw with rfl | hw
  · exact List.mem_cons_self
  · refine List.mem_cons_of_mem _ (parent_dcon hg ((hp v hv w).1 hw) ?_ _)
    rintro rfl
    exact hB.acyclic w (.single ⟨hv, hw⟩)

/-- What has happened when the expected counts were obtained. -/
theorem expectation_inv {ch : Choices V} {s : EM II} {l : List (V × Factor II)} (he : EM.expectation ch s = .ok l) :
    ∀ v ∈ EM.todo ch s, ∃ oc pa, obsCounts s.model.graph s.data v = .ok oc ∧ s.prior.getParents [v] = .ok pa ∧
      ∀ p ∈ oc, ∃ st st', st.1.model = s.model ∧ EM.addCounts ch v pa st p = .ok st' := by
  rw [EM.expectation] at he
  cases hz : (s.trainable.mapM fun v => do
      let f ← EM.zeroCounts s.prior v
      return (v, f)) with
  | error e => rw [hz] at he; cases he
  | ok p0 =>
    rw [hz, py_ok_bind] at he
    cases hf : (EM.todo ch s).foldlM (fun (st : VEObj (Factor II) II × List (V × Factor II)) v => do
        let oc ← obsCounts s.model.graph s.data v
        let pa ← s.prior.getParents [v]
        let f0 ← Dict.get p0 v
        let q ← oc.foldlM (EM.addCounts ch v pa) (st.1, f0)
        return (q.1, st.2 ++ [(v, q.2)])) (VEObj.new s.model, []) with
    | error e => rw [hf] at he; cases he
    | ok fin =>
      have hadd : ∀ (v : V) (pa : List V) (st : VEObj (Factor II) II × Factor II) (p : Obs V S × ℕ) st',
          st.1.model = s.model → EM.addCounts ch v pa st p = .ok st' → st'.1.model = s.model := by
        intro v pa st p st' hst h
        rw [EM.addCounts] at h
        cases h1 : (st.1.query ch ((v :: pa).filter fun x => x ∉ Dict.keys p.1) (some p.1)).2 with
        | error e => rw [h1] at h; cases h
        | ok q =>
          rw [h1, py_ok_bind] at h
          cases h2 : q.timesScalar (.fin (p.2 : K)) with
          | error e => rw [h2] at h; cases h
          | ok e =>
            rw [h2, py_ok_bind] at h
            cases h3 : st.2.addition e with
            | error e => rw [h3] at h; cases h
            | ok f =>
              rw [h3, py_ok_bind] at h
              cases h
              rw [← hst]
              exact query_model ch st.1 _ _
      have hparts : ∀ (st st' : VEObj (Factor II) II × List (V × Factor II)) (w : V), (do
            let oc ← obsCounts s.model.graph s.data w
            let pa ← s.prior.getParents [w]
            let f0 ← Dict.get p0 w
            let q ← oc.foldlM (EM.addCounts ch w pa) (st.1, f0)
            return (q.1, st.2 ++ [(w, q.2)])) = .ok st' → ∃ oc pa f0 q, obsCounts s.model.graph s.data w = .ok oc ∧
              s.prior.getParents [w] = .ok pa ∧ oc.foldlM (EM.addCounts ch w pa) (st.1, f0) = .ok q ∧
              st' = (q.1, st.2 ++ [(w, q.2)]) := by
        intro st st' w h
        cases h1 : obsCounts s.model.graph s.data w with
        | error e => rw [h1] at h; cases h
        | ok oc =>
          rw [h1, py_ok_bind] at h
          cases h2 : s.prior.getParents [w] with
          | error e => rw [h2] at h; cases h
          | ok pa =>
            rw [h2, py_ok_bind] at h
            cases h3 : Dict.get p0 w with
            | error e => rw [h3] at h; cases h
            | ok f0 =>
              rw [h3, py_ok_bind] at h
              cases h4 : oc.foldlM (EM.addCounts ch w pa) (st.1, f0) with
              | error e => rw [h4] at h; cases h
              | ok q =>
                rw [h4, py_ok_bind] at h
                cases h
                exact ⟨oc, pa, f0, q, rfl, rfl, h4, rfl⟩
      intro v hv
      obtain ⟨t, t', t1, t2⟩ := foldlM_inv (fun st => st.1.model = s.model) (by
        intro st w st' hst h
        obtain ⟨oc, pa, f0, q, h1, h2, h4, rfl⟩ := hparts st st' w h
        exact foldlM_last (fun st : VEObj (Factor II) II × Factor II => st.1.model = s.model)
          (fun st p st' => hadd w pa st p st') oc hst h4) _ rfl hf v hv
      obtain ⟨oc, pa, f0, q, h1, h2, h4, rfl⟩ := hparts t t' v t2
      refine ⟨oc, pa, h1, h2, fun p hp => ?_⟩
      exact foldlM_inv (fun st : VEObj (Factor II) II × Factor II => st.1.model = s.model)
        (fun st p st' => hadd v pa st p st') oc t1 h4 p hp

/-- What the expected counts need of each record: something of the variable and its parents is missing, and something is
observed that is not separated from the variable. -/
structure Usable (B : BN V S K) (g : DiGraph V) (v : V) (r : Rec V S) : Prop where
  missing : ∃ w ∈ v :: B.parents v, Rec.val r w = none
  relevant : ∃ w ∈ v :: g.dconNodes v (Rec.observed r), (Rec.val r w).isSome

theorem not_familyObserved {B : BN V S K} {v : V} {r : Rec V S} :
    ¬ FamilyObserved B v r ↔ ∃ w ∈ v :: B.parents v, Rec.val r w = none := by
  rw [FamilyObserved]
  constructor
  · intro h
    by_contra hc
    refine h fun w hw => ?_
    rw [Option.isSome_iff_ne_none]
    exact fun h' => hc ⟨w, hw, h'⟩
  · rintro ⟨w, hw, h⟩ hc
    have := hc w hw
    rw [h] at this
    cases this

/-- Records that cannot be used make the step fail. -/
theorem C97_needed {ch : Choices V} (hch : ch.Ok) {s : EM II} {B : BN V S K} (hr : Represents s.model B) (hB : B.Valid)
    (hpn : s.prior.graph.nodes = B.nodes) (hpp : ∀ v ∈ B.nodes, ∀ p, p ∈ B.parents v ↔ (p, v) ∈ s.prior.graph.edges)
    (hw : s.data.WF) {l : List (V × Factor II)} (he : EM.expectation ch s = .ok l) {v : V} (hv : v ∈ B.nodes)
    (ht : v ∈ s.trainable) (hc : v ∉ s.converged) {r : Rec V S} (hrow : r ∈ s.data.rows) : Usable B s.model.graph v r := by
  have hvt : v ∈ EM.todo ch s := ((hch.setOrd _).2 v).2 (List.mem_filter.2 ⟨ht, by simpa using hc⟩)
  obtain ⟨oc, pa', h1, h2, h3⟩ := expectation_inv he v hvt
  obtain ⟨pa, a1, a2, a3⟩ := EM.parents_ok hB hpn hpp hv
  obtain rfl : pa' = pa := by rw [a1] at h2; cases h2; rfl
  obtain ⟨d, d1, d2⟩ := (C60_patterns s.model.graph s.data v).2 r hrow
  obtain ⟨b, b1, b2⟩ := forall₂_left (mapM_eq_ok h1) d d1
  cases h5 : matchCount s.data d with
  | error e => rw [h5] at b2; cases b2
  | ok c =>
    rw [h5] at b2
    cases b2
    constructor
    · rw [← not_familyObserved]
      intro hobs
      obtain ⟨u, u', u1, u2⟩ := h3 (d, c) b1
      have hhid : (v :: pa').filter (fun x => x ∉ Dict.keys d) = [] := by
        rw [List.filter_eq_nil_iff]
        intro w hw'
        have := family_filter hB hr.wf hr.nodes hr.parents hw.nodup hv (hw.keys r hrow) hobs w (by
          rcases List.mem_cons.1 hw' with rfl | h
          · exact List.mem_cons_self
          · exact List.mem_cons_of_mem _ ((a3 w).1 h))
        have : w ∈ Dict.keys d := by
          rw [← Dict.get?_isSome] at this ⊢
          rw [d2 w]; exact this
        simpa using this
      rw [EM.addCounts] at u2
      simp only [hhid] at u2
      have hq := query_nil ch u.1 (B := B) (by rw [u1]; exact hr) (some d)
      rw [hq] at u2
      cases u2
    · rw [matchCount] at h5
      cases d with
      | nil => rw [if_pos (show ([] : Obs V S).isEmpty = true from rfl)] at h5; cases h5
      | cons p d =>
        have hg := d2 p.1
        rw [Dict.get?, if_pos rfl] at hg
        obtain ⟨_, c2, c3⟩ := (mem_dsepFilter hw.nodup (hw.keys r hrow)).1 (Dict.mem_of_get? hg.symm)
        exact ⟨p.1, c2, by rw [c3]; rfl⟩

/-- **C97** exactly when are the expected counts obtained: for records that are possible, all that matters is that every
record can be used for every variable that is still learnt. -/
theorem C97_counts_iff [IsStrictOrderedRing K] {ch : Choices V} (hch : ch.Ok) {s : EM II} {B : BN V S K} (hr : Represents s.model B)
    (hB : B.Valid) (hn : B.Normalised) (hnn : B.NonNeg) (hp : EM.PriorOk s.prior B) (ht : ∀ v ∈ s.trainable, v ∈ B.nodes)
    (hw : s.data.WF) (hpos : ∀ r ∈ s.data.rows, Possible B r) :
    (∃ l, EM.expectation ch s = .ok l) ↔
      ∀ v ∈ s.trainable, v ∉ s.converged → ∀ r ∈ s.data.rows, Usable B s.model.graph v r := by
  constructor
  · rintro ⟨l, he⟩ v hv hc r hrow
    exact C97_needed hch hr hB hp.nodes hp.parents hw he (ht v hv) hv hc hrow
  · intro h
    have htodo : ∀ v ∈ EM.todo ch s, v ∈ s.trainable ∧ v ∉ s.converged := by
      intro v hv
      have := List.mem_filter.1 (((hch.setOrd _).2 v).1 hv)
      simpa using this
    have hoc : ∀ v ∈ EM.todo ch s, obsCounts s.model.graph s.data v = .ok (weighted s.model.graph s.data v) := by
      intro v hv
      refine obsCounts_ok hw fun r hrow => ?_
      obtain ⟨w, h1, h2⟩ := (h v (htodo v hv).1 (htodo v hv).2 r hrow).relevant
      refine ⟨w, ?_, h1, h2⟩
      rw [← hw.keys r hrow]
      by_contra hc
      rw [Rec.val, Dict.get?_eq_none.2 hc] at h2
      cases h2
    obtain ⟨l, h1, _⟩ := EM.expectation_ok hch hr hB hn hp ht (fun v => weighted s.model.graph s.data v) hoc (by
      intro v hv p hp
      obtain ⟨hv1, hv2⟩ := htodo v hv
      obtain ⟨o, ho, rfl⟩ := List.mem_map.1 hp
      obtain ⟨r, hrow, rfl⟩ := (C60_patterns s.model.graph s.data v).1 o ho
      have hm : ∀ w x, Dict.get? (dsepFilter s.model.graph v r) w = some x → w ∈ B.nodes ∧ Rec.val r w = some x := by
        intro w x hx
        obtain ⟨_, b2, b3⟩ := (mem_dsepFilter hw.nodup (hw.keys r hrow)).1 (Dict.mem_of_get? hx)
        refine ⟨?_, b3⟩
        rcases List.mem_cons.1 b2 with h | h
        · have h : w = v := h
          rw [h]; exact ht v hv1
        · rw [← hr.nodes]
          exact (List.mem_filter.1 h).1
      obtain ⟨a, p1, p2, p3⟩ := hpos r hrow
      have hasg : ∀ w ∈ Dict.keys (dsepFilter s.model.graph v r), (asg (dsepFilter s.model.graph v r) : V → S) w = a w := by
        intro w hw'
        obtain ⟨x, hx⟩ := Option.isSome_iff_exists.1 (Dict.get?_isSome.2 hw')
        rw [asg, over_of_get? hx]
        exact (p3 w x (hm w x hx).2).symm
      refine ⟨?_, ⟨keys_dsepFilter_nodup hw.nodup (hw.keys r hrow) _ _, fun w hw' => ?_, fun w x hx => ?_⟩, ?_⟩
      · obtain ⟨w, w1, w2⟩ := (h v hv1 hv2 r hrow).missing
        intro hc
        have : w ∈ B.hidden v (dsepFilter s.model.graph v r) := by
          refine List.mem_filter.2 ⟨w1, ?_⟩
          simp only [decide_eq_true_eq]
          intro hk
          obtain ⟨x, hx⟩ := Option.isSome_iff_exists.1 (Dict.get?_isSome.2 hk)
          rw [(hm w x hx).2] at w2
          cases w2
        rw [hc] at this
        cases this
      · obtain ⟨x, hx⟩ := Option.isSome_iff_exists.1 (Dict.get?_isSome.2 hw')
        exact (hm w x hx).1
      · obtain ⟨x1, x2⟩ := hm w x hx
        rw [← p3 w x x2]
        exact p1 w x1
      · rw [hB.marg_dep _ _ _ hasg]
        exact (BN.marg_pos hB hnn _ p1 p2).ne')
    exact ⟨l, h1⟩

/-- **C97** a step fails as soon as one record gives the values of a variable to be learnt and of its parents, whatever the
network, the other records and the other variables. -/
theorem C97_step_fails {ch : Choices V} (hch : ch.Ok) {s : EM II} {B : BN V S K} (hr : Represents s.model B) (hB : B.Valid)
    (hpn : s.prior.graph.nodes = B.nodes) (hpp : ∀ v ∈ B.nodes, ∀ p, p ∈ B.parents v ↔ (p, v) ∈ s.prior.graph.edges)
    (hw : s.data.WF) {v : V} (hv : v ∈ B.nodes) (ht : v ∈ s.trainable) (hc : v ∉ s.converged) {r : Rec V S}
    (hrow : r ∈ s.data.rows) (hobs : FamilyObserved B v r) : ∃ e, EM.update ch s = .error e := by
  cases he : EM.expectation ch s with
  | error e => exact ⟨e, by rw [EM.update, he]; rfl⟩
  | ok l => exact absurd hobs (not_familyObserved.2 (C97_needed hch hr hB hpn hpp hw he hv ht hc hrow).missing)

/-- Where a run starts. -/
theorem em_init {prior : DagModel (Factor II) V S} {B : BN V S K} (hr : Represents prior B) (hB : B.Valid) {s : EM II}
    (hs : s.prior = prior) (fr : Frame V S) :
    ∃ m', EM.init s fr = .ok { s with model := m', data := EM.addMissing B.nodes fr, trainable := EM.effective s.trainable B.nodes fr } ∧
      Represents m' B ∧ m'.graph = prior.graph ∧ m'.factors = prior.factors := by
  obtain ⟨m', m1, m2, m3, m4, _⟩ := hr.copy hB
  refine ⟨m', ?_, m2, m3, m4⟩
  rw [EM.init, hs, m1, py_ok_bind, hr.nodes]
  rfl

/-- **C97** no run on such data succeeds, with or without a bound on the number of steps, unless it makes no step
at all. -/
theorem C97_run_fails {ch : Choices V} (hch : ch.Ok) (kl : List (Fl K) → List (Fl K) → Bool) {prior : DagModel (Factor II) V S}
    {B : BN V S K} (hr : Represents prior B) (hB : B.Valid) {s : LObj (EM II) (DagModel (Factor II) V S)}
    (hs : s.core.prior = prior) {fr : Frame V S} (hw : fr.WF) {v : V} (hv : v ∈ B.nodes)
    (ht : v ∈ EM.effective s.core.trainable B.nodes fr) (hc : v ∉ s.core.converged) {r : Rec V S} (hrow : r ∈ fr.rows)
    (hobs : FamilyObserved B v r) :
    (∀ n, ∃ e, (EM.learner ch kl).runF fr (n + 1) s = .error e) ∧ ∀ s', ¬ (EM.learner ch kl).Runs fr none s s' := by
  subst hs
  obtain ⟨m', m1, m2, m3, m4⟩ := em_init hr hB (s := s.core) rfl fr
  obtain ⟨e, he⟩ := C97_step_fails hch (s := { s.core with model := m', data := EM.addMissing B.nodes fr, trainable := EM.effective s.core.trainable B.nodes fr })
    m2 hB hr.nodes hr.parents (hw.addMissing hB.nodes) hv ht hc
    (List.mem_map.2 ⟨r, hrow, rfl⟩) (fun w hw => by rw [val_missing]; exact hobs w hw)
  have hstep : ∀ evo, (EM.learner ch kl).step ⟨{ s.core with model := m', data := EM.addMissing B.nodes fr, trainable := EM.effective s.core.trainable B.nodes fr }, evo⟩ = .error e := by
    intro evo
    rw [Learner.step]
    show (EM.update ch _ >>= _) = _
    rw [he]
    rfl
  constructor
  · intro n
    refine ⟨e, ?_⟩
    rw [Learner.runF]
    show (EM.init s.core fr >>= _) = _
    rw [m1, py_ok_bind, Learner.loopF, hstep]
    rfl
  · rintro s' ⟨c, c1, c2⟩
    have c1 : EM.init s.core fr = .ok c := c1
    rw [m1] at c1
    cases c1
    cases c2 with
    | done h => exact h trivial
    | stop _ h _ => rw [hstep] at h; cases h
    | next _ h _ _ => rw [hstep] at h; cases h

/-- **C97** when every record gives the values of the variables to be learnt and of their parents, the failure is a
`TypeError`. -/
theorem C97_complete_fails {ch : Choices V} (hch : ch.Ok) (kl : List (Fl K) → List (Fl K) → Bool) {prior : DagModel (Factor II) V S}
    {B : BN V S K} (hr : Represents prior B) (hB : B.Valid)
    (hdom : ∀ v ∈ B.nodes, Dict.get? prior.domains v = some (some (B.states v))) {s : LObj (EM II) (DagModel (Factor II) V S)}
    (hs : s.core.prior = prior) {fr : Frame V S} (hw : fr.WF) (hne : fr.rows ≠ [])
    (ht : ∀ v ∈ EM.effective s.core.trainable B.nodes fr, v ∈ B.nodes)
    (hc : ∃ v ∈ EM.effective s.core.trainable B.nodes fr, v ∉ s.core.converged)
    (hobs : ∀ v ∈ EM.effective s.core.trainable B.nodes fr, ∀ r ∈ fr.rows, FamilyObserved B v r) (n : ℕ) :
    (EM.learner ch kl).runF fr (n + 1) s = .error .typeError := by
  subst hs
  obtain ⟨m', m1, m2, m3, m4⟩ := em_init hr hB (s := s.core) rfl fr
  set c : EM II := { s.core with model := m', data := EM.addMissing B.nodes fr, trainable := EM.effective s.core.trainable B.nodes fr } with hcd
  have hwc : c.data.WF := hw.addMissing hB.nodes
  have hp : EM.PriorOk s.core.prior B := ⟨hr.nodes, hr.parents, hdom⟩
  have hrowsne : c.data.rows ≠ [] := by
    show fr.rows.map _ ≠ []
    simpa using hne
  have hfam : ∀ v ∈ c.trainable, ∀ r ∈ c.data.rows, FamilyObserved B v r := by
    intro v hv r hrow
    obtain ⟨r, h1, rfl⟩ := List.mem_map.1 hrow
    exact fun w hw => by rw [val_missing]; exact hobs v hv r h1 w hw
  have hexp : EM.expectation ch c = .error .typeError := by
    obtain ⟨v0, h01, h02⟩ := hc
    have hin : v0 ∈ EM.todo ch c := ((hch.setOrd _).2 v0).2 (List.mem_filter.2 ⟨h01, by simpa using h02⟩)
    obtain ⟨v, vs, htd⟩ : ∃ v vs, EM.todo ch c = v :: vs := by
      cases h : EM.todo ch c with
      | nil => rw [h] at hin; cases hin
      | cons v vs => exact ⟨v, vs, rfl⟩
    have hvt : v ∈ c.trainable := (List.mem_filter.1 (((hch.setOrd _).2 v).1 (by
      show v ∈ EM.todo ch c
      rw [htd]; exact List.mem_cons_self))).1
    have hv := ht v hvt
    obtain ⟨zs, hz, hzk⟩ : ∃ zs, (c.trainable.mapM fun v => do
        let f ← EM.zeroCounts c.prior v
        return (v, f)) = .ok zs ∧ v ∈ Dict.keys zs := by
      have hz : ∀ w ∈ c.trainable, ∃ r : Factor II, EM.zeroCounts c.prior w = .ok r := fun w hw => by
        obtain ⟨r, h, _⟩ := EM.zeroCounts_ok hB hp (ht w hw)
        exact ⟨r, h⟩
      obtain ⟨r0, _⟩ := Factor.rep_makeScalar (storeOf_lawful (V := V) (S := S) (α := Fl K) vt) (D := B.states) DomOk.nil (by simp) 0
      haveI : Nonempty (Factor II) := ⟨r0⟩
      choose! z hz using hz
      refine ⟨c.trainable.map fun w => (w, z w), mapM_ok fun w hw => by rw [hz w hw]; rfl, ?_⟩
      exact Dict.mem_keys_of_mem (p := (v, z v)) (List.mem_map.2 ⟨v, hvt, rfl⟩)
    obtain ⟨pa, a1, a2, a3⟩ := EM.parents_ok hB (m := c.prior) hr.nodes hr.parents hv
    obtain ⟨f0, hf0⟩ := Option.isSome_iff_exists.1 (Dict.get?_isSome.2 hzk)
    have hk : ∀ r ∈ c.data.rows, ∀ w ∈ v :: B.parents v, w ∈ Dict.keys (dsepFilter c.model.graph v r) := fun r hrow =>
      family_filter hB m2.wf m2.nodes m2.parents hwc.nodup hv (hwc.keys r hrow) (hfam v hvt r hrow)
    have hoc := obsCounts_ok (g := c.model.graph) (t := v) hwc fun r hrow => by
      have h1 := hk r hrow v List.mem_cons_self
      obtain ⟨x, hx⟩ := Option.isSome_iff_exists.1 (Dict.get?_isSome.2 h1)
      obtain ⟨b1, b2, b3⟩ := (mem_dsepFilter hwc.nodup (hwc.keys r hrow)).1 (Dict.mem_of_get? hx)
      exact ⟨v, b1, b2, by rw [b3]; rfl⟩
    have hbl : obsBlanket c.model.graph c.data v ≠ [] := by
      obtain ⟨r, hrow⟩ := List.exists_mem_of_ne_nil _ hrowsne
      obtain ⟨d, d1, _⟩ := (C60_patterns c.model.graph c.data v).2 r hrow
      intro h
      rw [h] at d1
      cases d1
    obtain ⟨d, ds, hd⟩ := List.exists_cons_of_ne_nil hbl
    obtain ⟨r, hrow, hdr⟩ := (C60_patterns c.model.graph c.data v).1 d (by rw [hd]; exact List.mem_cons_self)
    have hhid : (v :: pa).filter (fun x => x ∉ Dict.keys d) = [] := by
      rw [List.filter_eq_nil_iff]
      intro w hw'
      have := hk r hrow w (by
        rcases List.mem_cons.1 hw' with rfl | h
        · exact List.mem_cons_self
        · exact List.mem_cons_of_mem _ ((a3 w).1 h))
      rw [← hdr] at this
      simpa using this
    have hkeys : ∀ w ∈ Dict.keys d, w ∈ B.nodes := by
      intro w hw'
      obtain ⟨x, hx⟩ := Option.isSome_iff_exists.1 (Dict.get?_isSome.2 hw')
      rw [hdr] at hx
      obtain ⟨_, b2, _⟩ := (mem_dsepFilter hwc.nodup (hwc.keys r hrow)).1 (Dict.mem_of_get? hx)
      rcases List.mem_cons.1 b2 with h | h
      · have h : w = v := h
        exact h.symm ▸ hv
      · rw [← m2.nodes]
        exact (List.mem_filter.1 h).1
    have hq := query_nil ch (VEObj.new c.model : VEObj (Factor II) II) (B := B) m2 (some d)
    rw [if_pos (show ∀ w ∈ Dict.keys ((some d).getD []), w ∈ B.nodes from hkeys)] at hq
    rw [EM.expectation, hz, py_ok_bind, htd, List.foldlM_cons, hoc, py_ok_bind]
    show (((((c.prior.getParents [v]) : Py _) >>= _) >>= _) >>= _) = _
    rw [a1, py_ok_bind, Dict.get, hf0]
    simp only [py_ok_bind, hd, List.map_cons, List.foldlM_cons, EM.addCounts, hhid, hq]
    rfl
  have hstep : ∀ evo, (EM.learner ch kl).step ⟨c, evo⟩ = .error .typeError := by
    intro evo
    rw [Learner.step]
    show (EM.update ch _ >>= _) = _
    rw [EM.update, hexp]
    rfl
  rw [Learner.runF]
  show (EM.init s.core fr >>= _) = _
  rw [m1, py_ok_bind, Learner.loopF, hstep]
  rfl

/-- **C97** when nothing is missing and the variables to be learnt are not given, none is learnt: the result is the prior,
whatever the records. -/
theorem C97_default [IsStrictOrderedRing K] {ch : Choices V} (hch : ch.Ok) (kl : List (Fl K) → List (Fl K) → Bool) {prior : DagModel (Factor II) V S}
    {B : BN V S K} (hr : Represents prior B) (hB : B.Valid) (hn : B.Normalised)
    (hdom : ∀ v ∈ B.nodes, Dict.get? prior.domains v = some (some (B.states v))) {fr : Frame V S}
    (hcols : ∀ v ∈ B.nodes, v ∈ fr.cols) (hfull : ∀ v ∈ fr.cols, ∀ r ∈ fr.rows, (Rec.val r v).isSome) (n : ℕ) :
    ∃ s', (EM.learner ch kl).runF fr n ⟨EM.new prior none, none⟩ = .ok s' ∧ s'.core.model.graph = prior.graph ∧
      ∀ v ∈ B.nodes, Dict.get? s'.core.model.factors v = Dict.get? prior.factors v := by
  obtain ⟨m', m1, m2, m3, m4⟩ := em_init hr hB (s := EM.new prior none) rfl fr
  have heff : EM.effective (EM.new prior none : EM II).trainable B.nodes fr = [] := by
    rw [EM.effective, if_pos (show (EM.new prior none : EM II).trainable = [] from rfl), List.filter_eq_nil_iff]
    intro v hv
    have hv : v ∈ fr.cols := by
      rcases List.mem_append.1 hv with h | h
      · exact h
      · exact hcols v (List.mem_filter.1 h).1
    rw [Bool.not_eq_true, Frame.hasNa, List.any_eq_false]
    intro r hrow
    obtain ⟨r, h1, rfl⟩ := List.mem_map.1 hrow
    rw [val_missing]
    have := hfull v hv r h1
    simp [Option.isNone_iff_eq_none]
    intro h
    rw [h] at this
    cases this
  rw [heff] at m1
  set c : EM II := { (EM.new prior none : EM II) with model := m', data := EM.addMissing B.nodes fr, trainable := [] } with hcd
  rw [Learner.runF]
  show ∃ s', (EM.init (EM.new prior none) fr >>= _) = .ok s' ∧ _
  rw [m1, py_ok_bind]
  cases n with
  | zero => exact ⟨_, rfl, m3, fun v _ => by show Dict.get? m'.factors v = _; rw [m4]⟩
  | succ n =>
    obtain ⟨m2', u1, u2, u3, u4⟩ := update_nothing hch (s := c) m2 hB hn (priorOk_of hr hdom) (by simp [hcd]) (by simp [hcd])
    have hstop : ∀ evo, EM.stop kl { c with model := m2' } evo = .ok ({ c with model := m2' }, true) := by
      intro evo
      rw [EM.stop]
      simp [hcd, EM.new, SameSet]
    rw [Learner.loopF, Learner.step]
    show ∃ s', (((EM.update ch c >>= _) : Py _) >>= _) = _ ∧ _
    rw [u1]
    simp only [py_ok_bind, pure, Except.pure, Learner.check]
    show ∃ s', (((EM.stop kl { c with model := m2' } _ >>= _) : Py _) >>= _) = _ ∧ _
    rw [hstop]
    refine ⟨_, rfl, ?_, fun v hv => ?_⟩
    · show m2'.graph = _
      rw [u3]; exact m3
    · show Dict.get? m2'.factors v = _
      rw [u4 v hv]
      show Dict.get? m'.factors v = _
      rw [m4]

end

/-! ### Examples -/

/-- Records of `U` and `X` -/
def frUX (rs : List (Option Char × Option Char)) : Frame Char Char :=
  ⟨['U', 'X'], rs.map fun p => [('U', p.1), ('X', p.2)]⟩

/-- **C97** on `U → X`: (1) with records of `X` only, `U` is learnt; (2) if one of them also gives the value of `U`, learning
fails, and (3) likewise when all values are given; (4) without a list of variables the complete records leave the prior. -/
theorem C97_example (vt : VType) :
    learnU vt rowsUX ['U'] [(frUX [(none, some 'a'), (none, some 'a'), (none, some 'b')], 1)] = .ok ([q (7/12), q (5/12)], [], 2) ∧
    learnU vt rowsUX ['U'] [(frUX [(none, some 'a'), (some 'a', some 'a'), (none, some 'b')], 1)] = .error .typeError ∧
    learnU vt rowsUX ['U'] [(frUX [(some 'a', some 'a'), (some 'a', some 'a')], 1)] = .error .typeError ∧
    learnU vt rowsUX [] [(frUX [(some 'a', some 'a'), (some 'a', some 'a')], 1)] = .ok ([q (1/2), q (1/2)], [], 2) := by
  cases vt <;> exact ⟨by decide +kernel, by decide +kernel, by decide +kernel, by decide +kernel⟩

/-- The hypotheses of `C97_run_fails` and `C97_complete_fails` can be met: every list of records with one in which `U` is
observed. -/
theorem C97_holds (vt : VType) (rs : List (Option Char × Option Char)) (a : Char) (x : Option Char) (h : (some a, x) ∈ rs) :
    ∃ m, netOf vt gUX rowsUX = .ok m ∧
      (∀ n, ∃ e, (EM.learner chEx klEq).runF (frUX rs) (n + 1) ⟨EM.new m (some ['U']), none⟩ = .error e) ∧
      ((∀ p ∈ rs, p.1.isSome) → ∀ n, (EM.learner chEx klEq).runF (frUX rs) (n + 1) ⟨EM.new m (some ['U']), none⟩ = .error .typeError) := by
  obtain ⟨m, h1, h2, h3, h4, h5, h6⟩ := ux_net vt
  have hc := uxCheck_ok vt
  rw [uxCheck, h1] at hc
  simp only [decide_eq_true_eq] at hc
  obtain ⟨c1, c2, c3, c4, c5, c6, c7⟩ := hc
  have hw : (frUX rs).WF := ⟨(by decide : ['U', 'X'].Nodup), fun r hr => by obtain ⟨p, _, rfl⟩ := List.mem_map.1 hr; rfl⟩
  have hfam : ∀ p : Option Char × Option Char, p.1.isSome → FamilyObserved (BN.ofModel (IQ vt) m) 'U' [('U', p.1), ('X', p.2)] := by
    intro p hp w hw
    rw [c2, List.mem_singleton] at hw
    subst hw
    exact hp
  refine ⟨m, h1, ?_, fun hall n => ?_⟩
  · exact (C97_run_fails chEx_ok klEq h3 h4 (s := ⟨EM.new m (some ['U']), none⟩) rfl hw (v := 'U') (by rw [c1]; simp)
      (by simp [EM.effective, EM.new]) (by simp [EM.new]) (List.mem_map.2 ⟨_, h, rfl⟩) (hfam (some a, x) rfl)).1
  · have he : EM.effective (EM.new m (some ['U']) : EM (IQ vt)).trainable (BN.ofModel (IQ vt) m).nodes (frUX rs) = ['U'] := rfl
    refine C97_complete_fails chEx_ok klEq h3 h4 c5 (s := ⟨EM.new m (some ['U']), none⟩) rfl hw ?_ ?_ ?_ ?_ n
    · intro hn
      rw [List.map_eq_nil_iff.1 hn] at h
      cases h
    · rw [he]
      intro v hv
      rw [List.mem_singleton.1 hv, c1]
      simp
    · rw [he]
      exact ⟨'U', by simp, by simp [EM.new]⟩
    · rw [he]
      intro v hv r hr
      rw [List.mem_singleton.1 hv]
      obtain ⟨p, hp, rfl⟩ := List.mem_map.1 hr
      exact hfam p (hall p hp)

/-- `C97_counts_iff` for `U → X` and records of five kinds: `U` can be learnt if all of them are records of `X` only. -/
theorem C97_counts_example (vt : VType) (rs : List (Option Char × Option Char))
    (h : ∀ p ∈ rs, p ∈ [(none, some 'a'), (none, some 'b'), (some 'a', some 'a'), (some 'b', none), (none, none)]) :
    ∃ m, netOf vt gUX rowsUX = .ok m ∧ ((∃ l, EM.expectation chEx (⟨m, m, ['U'], [], frUX rs⟩ : EM (IQ vt)) = .ok l) ↔
      ∀ p ∈ rs, p.1 = none ∧ p.2 ≠ none) := by
  obtain ⟨m, h1, h2, h3, h4, h5, h6⟩ := ux_net vt
  have hc := uxCheck_ok vt
  rw [uxCheck, h1] at hc
  simp only [decide_eq_true_eq] at hc
  obtain ⟨c1, c2, c3, c4, c5, c6, c7⟩ := hc
  have hw : (frUX rs).WF := ⟨(by decide : ['U', 'X'].Nodup), fun r hr => by obtain ⟨p, _, rfl⟩ := List.mem_map.1 hr; rfl⟩
  refine ⟨m, h1, (C97_counts_iff chEx_ok (s := (⟨m, m, ['U'], [], frUX rs⟩ : EM (IQ vt))) h3 h4 h5 h6 (priorOk_of h3 c5) ?_ hw ?_).trans ?_⟩
  · intro v hv
    rw [List.mem_singleton.1 hv, c1]
    simp
  · intro r hr
    obtain ⟨p, hp, rfl⟩ := List.mem_map.1 hr
    have hin : ∀ c : Char, c = 'a' ∨ c = 'b' → (BN.ofModel (IQ vt) m : BN Char Char ℚ).InStates fun _ => c := by
      intro c hc v hv
      rw [c1] at hv
      rcases hc with rfl | rfl <;> (simp at hv; rcases hv with rfl | rfl <;> simp [c3, c4])
    have key : ∀ c : Char, c = 'a' ∨ c = 'b' → p ∈ [(none, some c), (some c, some c), (some c, none), (none, none)] →
        Possible (BN.ofModel (IQ vt) m : BN Char Char ℚ) [('U', p.1), ('X', p.2)] := by
      intro c hc hp
      refine ⟨fun _ => c, hin c hc, by rcases hc with rfl | rfl; exacts [c6, c7], fun v x hx => ?_⟩
      have hx : (Dict.get? [('U', p.1), ('X', p.2)] v).getD none = some x := hx
      simp only [Dict.get?] at hx
      simp only [List.mem_cons, List.not_mem_nil, or_false] at hp
      rcases hp with rfl | rfl | rfl | rfl <;> (split_ifs at hx <;> simp_all)
    have := h p hp
    simp only [List.mem_cons, List.not_mem_nil, or_false] at this
    rcases this with rfl | rfl | rfl | rfl | rfl
    · exact key 'a' (.inl rfl) (by simp)
    · exact key 'b' (.inr rfl) (by simp)
    · exact key 'a' (.inl rfl) (by simp)
    · exact key 'b' (.inr rfl) (by simp)
    · exact key 'a' (.inl rfl) (by simp)
  · have hu : ∀ p ∈ rs, Usable (BN.ofModel (IQ vt) m : BN Char Char ℚ) gUX 'U' [('U', p.1), ('X', p.2)] ↔ p.1 = none ∧ p.2 ≠ none := by
      intro p hp
      have hmiss : (∃ w ∈ 'U' :: (BN.ofModel (IQ vt) m : BN Char Char ℚ).parents 'U', Rec.val [('U', p.1), ('X', p.2)] w = none) ↔ p.1 = none := by
        rw [c2]
        constructor
        · rintro ⟨w, hw, h⟩
          rw [List.mem_singleton.1 hw] at h
          exact h
        · intro h
          exact ⟨'U', by simp, h⟩
      have h0 := h p hp
      simp only [List.mem_cons, List.not_mem_nil, or_false] at h0
      constructor
      · rintro ⟨u1, u2⟩
        refine ⟨hmiss.1 u1, fun hn => ?_⟩
        have h1 := hmiss.1 u1
        obtain ⟨w, hw, hs⟩ := u2
        have : Rec.val [('U', p.1), ('X', p.2)] w = none := by
          rw [h1, hn]
          show (Dict.get? [('U', none), ('X', none)] w).getD none = none
          simp only [Dict.get?]
          split_ifs <;> rfl
        rw [this] at hs
        cases hs
      · rintro ⟨u1, u2⟩
        refine ⟨hmiss.2 u1, ?_⟩
        rcases h0 with rfl | rfl | rfl | rfl | rfl
        · exact ⟨'X', by decide, rfl⟩
        · exact ⟨'X', by decide, rfl⟩
        · cases u1
        · cases u1
        · exact absurd rfl u2
    show (∀ v ∈ ['U'], v ∉ [] → ∀ r ∈ rs.map _, Usable _ m.graph v r) ↔ _
    rw [h2]
    constructor
    · intro hh p hp
      exact (hu p hp).1 (hh 'U' (by simp) (by simp) _ (List.mem_map.2 ⟨p, hp, rfl⟩))
    · intro hh v hv _ r hr
      rw [List.mem_singleton.1 hv]
      obtain ⟨p, hp, rfl⟩ := List.mem_map.1 hr
      exact (hu p hp).2 (hh p hp)

end Verif.Props
