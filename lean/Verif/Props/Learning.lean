import Verif.Learn.EMData
import Verif.Props.Iterative

/-!
# Expectation maximisation (C55, C56, C59)
-/

set_option linter.unusedSectionVars false
set_option linter.unusedSimpArgs false

namespace Verif.Props
open Verif

variable {V S K : Type} [DecidableEq V] [DecidableEq S] [Nonempty S] [Field K] [LinearOrder K] [IsStrictOrderedRing K] {vt : VType}

local notation "II" => (storeOf vt : StoreImpl V S (Fl K))

/-! ### C59: expected counts -/

/-- The counts as they should be: an observation contributes to the cell of `a` only when `a` has the observed states of
`v` and its parents. -/
def ownCount (B : BN V S K) (v : V) (oc : List (Obs V S × ℕ)) (a : V → S) : K :=
  (oc.map fun p => if ∀ w ∈ v :: B.parents v, over p.1 a w = a w then B.post (B.hidden v p.1) p.1 a * (p.2 : K) else 0).sum

/-- **C59** what is computed: for each weighted observation the posterior of those of `v` and its parents that are not
observed. -/
theorem C59_counts {ch : Choices V} (hch : ch.Ok) {s : EM II} {B : BN V S K} (hr : Represents s.model B)
    (hB : B.Valid) (hn : B.Normalised) (hp : EM.PriorOk s.prior B) (ht : ∀ v ∈ s.trainable, v ∈ B.nodes)
    (oc : V → List (Obs V S × ℕ)) (hoc : ∀ v ∈ s.trainable, obsCounts s.model.graph s.data v = .ok (oc v))
    (ho : ∀ v ∈ s.trainable, ∀ p ∈ oc v, EM.ObsOk B v p.1) :
    ∃ l, EM.expectation ch s = .ok l ∧ (∀ v, v ∈ Dict.keys l ↔ v ∈ s.trainable ∧ v ∉ s.converged) ∧
      ∀ v f, Dict.get? l v = some f → ∀ obs, FullObs f.dom obs → f.getValue obs = .ok (.fin (B.expCount v (oc v) (asg obs))) := by
  have hsub := EM.todo_sub hch s
  obtain ⟨l, l1, l2, l3⟩ := EM.expectation_ok hch hr hB hn hp ht oc (fun v hv => hoc v (hsub v hv)) fun v hv => ho v (hsub v hv)
  refine ⟨l, l1, fun v => ?_, fun v f hf obs hobs => ?_⟩
  · rw [l2, EM.todo, (hch.setOrd _).2]
    simp
  · exact (l3 _ (Dict.mem_of_get? hf)).1.getValue (storeOf_lawful vt) hobs

/-- **C59 (partial)** when neither the variable nor one of its parents is observed, each record contributes only to its own
configuration. (The full statement is about observed parents, too; then it is false, see `C59_other_configurations`.) -/
theorem C59_own_configuration_partial {ch : Choices V} (hch : ch.Ok) {s : EM II} {B : BN V S K} (hr : Represents s.model B)
    (hB : B.Valid) (hn : B.Normalised) (hp : EM.PriorOk s.prior B) (ht : ∀ v ∈ s.trainable, v ∈ B.nodes)
    (oc : V → List (Obs V S × ℕ)) (hoc : ∀ v ∈ s.trainable, obsCounts s.model.graph s.data v = .ok (oc v))
    (ho : ∀ v ∈ s.trainable, ∀ p ∈ oc v, EM.ObsOk B v p.1)
    (hh : ∀ v ∈ s.trainable, ∀ p ∈ oc v, ∀ w ∈ v :: B.parents v, w ∉ Dict.keys p.1) :
    ∃ l, EM.expectation ch s = .ok l ∧ (∀ v, v ∈ Dict.keys l ↔ v ∈ s.trainable ∧ v ∉ s.converged) ∧
      ∀ v f, Dict.get? l v = some f → ∀ obs, FullObs f.dom obs → f.getValue obs = .ok (.fin (ownCount B v (oc v) (asg obs))) := by
  obtain ⟨l, l1, l2, l3⟩ := C59_counts hch hr hB hn hp ht oc hoc ho
  refine ⟨l, l1, l2, fun v f hf obs hobs => ?_⟩
  rw [l3 v f hf obs hobs]
  have hv : v ∈ s.trainable := ((l2 v).1 (Dict.mem_keys_of_mem (Dict.mem_of_get? hf))).1
  congr 2
  rw [BN.expCount, ownCount]
  congr 1
  refine List.map_congr_left fun p hpm => (if_pos fun w hw => ?_).symm
  exact over_of_not_mem (hh v hv p hpm w hw)

/-- **C59** is false with observed parents: the computed count of a cell does not depend on the states of observed
parents. -/
theorem C59_broadcast {B : BN V S K} (hB : B.Valid) (v : V) (oc : List (Obs V S × ℕ)) {a b : V → S}
    (hab : ∀ p ∈ oc, ∀ w ∈ B.hidden v p.1, a w = b w) : B.expCount v oc a = B.expCount v oc b := by
  rw [BN.expCount, BN.expCount]
  congr 1
  refine List.map_congr_left fun p hp => ?_
  congr 1
  rw [BN.post, BN.post]
  congr 1
  · exact hB.marg_dep _ _ _ (over_agree (hab p hp))
  · refine hB.marg_dep _ _ _ fun w hw => ?_
    exact over_agree (vs := []) (by simp) w (by simpa using hw)

/-- **C59** the count of a configuration that contradicts an observed state of a parent is too large. -/
theorem C59_other_configurations {B : BN V S K} (hB : B.Valid) (hnn : B.NonNeg) {v : V}
    {oc : List (Obs V S × ℕ)} (ho : ∀ p ∈ oc, ∀ w s, Dict.get? p.1 w = some s → s ∈ B.states w) {a : V → S}
    (ha : ∀ w ∈ v :: B.parents v, a w ∈ B.states w) {p : Obs V S × ℕ} (hp : p ∈ oc) (hc : 0 < p.2)
    {w : V} (hw : w ∈ B.parents v) {s : S} (hs : Dict.get? p.1 w = some s) (hne : a w ≠ s)
    (hpos : 0 < B.post (B.hidden v p.1) p.1 a) : ownCount B v oc a < B.expCount v oc a := by
  rw [BN.expCount, ownCount]
  have h0 : ∀ q ∈ oc, 0 ≤ B.post (B.hidden v q.1) q.1 a * (q.2 : K) := fun q hq =>
    mul_nonneg (BN.post_nonneg hB hnn (ho q hq) fun w hw => ha w (List.mem_filter.1 hw).1) (Nat.cast_nonneg _)
  refine List.sum_lt_sum _ _ (fun q hq => ?_) ⟨p, hp, ?_⟩
  · split
    · exact le_refl _
    · exact h0 q hq
  · rw [if_neg fun h => hne ((h w (List.mem_cons_of_mem _ hw)).symm.trans (over_of_get? hs))]
    exact mul_pos hpos (Nat.cast_pos.2 hc)


/-! ### C56: what learning keeps -/

/-- A history of runs on the same object: data and bound on the number of iterations for each of them. -/
def runsF (ch : Choices V) (kl : List (Fl K) → List (Fl K) → Bool) (h : List (Frame V S × ℕ))
    (s : LObj (EM II) (DagModel (Factor II) V S)) : Py (LObj (EM II) (DagModel (Factor II) V S)) :=
  h.foldlM (fun s p => (EM.learner ch kl).runF p.1 p.2 s) s

theorem priorOk_of {prior : DagModel (Factor II) V S} {B : BN V S K} (hr : Represents prior B)
    (hd : ∀ v ∈ B.nodes, Dict.get? prior.domains v = some (some (B.states v))) : EM.PriorOk prior B :=
  ⟨hr.nodes, hr.parents, hd⟩

/-- **C56** a run for roots: it succeeds, whatever the stopping rule decides; every recorded model has the graph and the
states of the prior, non-negative and normalised tables, and for all variables but the trainable ones the factors of the
prior. -/
theorem C56_run {ch : Choices V} (hch : ch.Ok) (kl : List (Fl K) → List (Fl K) → Bool) {prior : DagModel (Factor II) V S} {B : BN V S K}
    (hr : Represents prior B) (hB : B.Valid) (hn : B.Normalised) (hnn : B.NonNeg)
    (hdom : ∀ v ∈ B.nodes, Dict.get? prior.domains v = some (some (B.states v)))
    {T : List V} {fr : Frame V S} (hd : RootData B prior.graph fr T) (hpos : ∀ r ∈ fr.rows, Possible B r)
    {s : LObj (EM II) (DagModel (Factor II) V S)} (hs : s.core.prior = prior)
    (hT : EM.effective s.core.trainable B.nodes fr = T)
    (he : ∀ l, s.evo = some l → l ≠ [] ∧ ∀ m ∈ l, EM.Learnt prior B T m) (n : ℕ) :
    ∃ s', (EM.learner ch kl).runF fr n s = .ok s' ∧ s'.core.prior = prior ∧ s'.core.trainable = T ∧
      EM.Learnt prior B T s'.core.model ∧ ∀ m ∈ (EM.learner ch kl).evolution s', EM.Learnt prior B T m := by
  obtain ⟨c, c1, c2⟩ := EM.ObjOk.init (ch := ch) (kl := kl) hr hB hn hnn hpos hs hT he
  obtain ⟨s', s1, s2⟩ := c2.loopF hch (priorOk_of hr hdom) (hd.addMissing hB.nodes) n
  refine ⟨s', ?_, s2.core.isPrior, s2.core.trainable, s2.core.learnt, s2.evo⟩
  rw [Learner.runF, c1, py_ok_bind]
  exact s1

/-- **C56** without a bound on the iterations, whenever the run ends. -/
theorem C56_unbounded {ch : Choices V} (hch : ch.Ok) (kl : List (Fl K) → List (Fl K) → Bool) {prior : DagModel (Factor II) V S}
    {B : BN V S K} (hr : Represents prior B) (hB : B.Valid) (hn : B.Normalised) (hnn : B.NonNeg)
    (hdom : ∀ v ∈ B.nodes, Dict.get? prior.domains v = some (some (B.states v)))
    {T : List V} {fr : Frame V S} (hd : RootData B prior.graph fr T) (hpos : ∀ r ∈ fr.rows, Possible B r)
    {s s' : LObj (EM II) (DagModel (Factor II) V S)} (hs : s.core.prior = prior)
    (hT : EM.effective s.core.trainable B.nodes fr = T)
    (he : ∀ l, s.evo = some l → l ≠ [] ∧ ∀ m ∈ l, EM.Learnt prior B T m) {max : Option ℕ}
    (h : (EM.learner ch kl).Runs fr max s s') :
    EM.Learnt prior B T s'.core.model ∧ ∀ m ∈ (EM.learner ch kl).evolution s', EM.Learnt prior B T m := by
  obtain ⟨c, c1, c2⟩ := EM.ObjOk.init (ch := ch) (kl := kl) hr hB hn hnn hpos hs hT he
  obtain ⟨c', h1, h2⟩ := h
  rw [c1] at h1
  injection h1 with h1
  subst h1
  have := c2.loop hch (priorOk_of hr hdom) (hd.addMissing hB.nodes) h2
  exact ⟨this.core.learnt, this.evo⟩

/-- **C56** all histories of runs on an object that learns the roots `T`. -/
theorem C56_history {ch : Choices V} (hch : ch.Ok) (kl : List (Fl K) → List (Fl K) → Bool) {prior : DagModel (Factor II) V S} {B : BN V S K}
    (hr : Represents prior B) (hB : B.Valid) (hn : B.Normalised) (hnn : B.NonNeg)
    (hdom : ∀ v ∈ B.nodes, Dict.get? prior.domains v = some (some (B.states v)))
    {T : List V} (hT : T ≠ []) (h : List (Frame V S × ℕ))
    (hd : ∀ p ∈ h, RootData B prior.graph p.1 T ∧ ∀ r ∈ p.1.rows, Possible B r) :
    ∃ s', runsF ch kl h ⟨EM.new prior (some T), none⟩ = .ok s' ∧ EM.Learnt prior B T s'.core.model ∧
      ∀ m ∈ (EM.learner ch kl).evolution s', EM.Learnt prior B T m := by
  have key : ∀ (h : List (Frame V S × ℕ)), (∀ p ∈ h, RootData B prior.graph p.1 T ∧ ∀ r ∈ p.1.rows, Possible B r) →
      ∀ s : LObj (EM II) (DagModel (Factor II) V S), s.core.prior = prior → s.core.trainable = T → EM.Learnt prior B T s.core.model →
      (EM.learner ch kl).evolution s ≠ [] → (∀ m ∈ (EM.learner ch kl).evolution s, EM.Learnt prior B T m) →
      ∃ s', runsF ch kl h s = .ok s' ∧ EM.Learnt prior B T s'.core.model ∧
        ∀ m ∈ (EM.learner ch kl).evolution s', EM.Learnt prior B T m := by
    intro h
    induction h with
    | nil => intro _ s _ _ h3 _ h5; exact ⟨s, rfl, h3, h5⟩
    | cons p h ih =>
      intro hd s h1 h2 h3 h4 h5
      obtain ⟨d1, d2⟩ := hd p List.mem_cons_self
      have heff : EM.effective s.core.trainable B.nodes p.1 = T := by
        rw [EM.effective, h2, if_neg hT]
      obtain ⟨c, c1, c2⟩ := EM.ObjOk.init (ch := ch) (kl := kl) hr hB hn hnn d2 h1 heff (by
        intro l hl
        have e : (EM.learner ch kl).evolution s = l := by rw [Learner.evolution, hl]; rfl
        rw [e] at h4 h5
        exact ⟨h4, h5⟩)
      obtain ⟨s1, e1, e2⟩ := c2.loopF hch (priorOk_of hr hdom) (d1.addMissing hB.nodes) p.2
      have hrun : (EM.learner ch kl).runF p.1 p.2 s = .ok s1 := by
        rw [Learner.runF, c1, py_ok_bind]; exact e1
      obtain ⟨s', g1, g2⟩ := ih (fun q hq => hd q (List.mem_cons_of_mem _ hq)) s1 e2.core.isPrior e2.core.trainable
        e2.core.learnt e2.nonempty e2.evo
      refine ⟨s', ?_, g2⟩
      rw [runsF, List.foldlM_cons, hrun]
      exact g1
  refine key h hd _ rfl rfl (EM.Learnt.refl hr hB hn hnn T) (by simp [Learner.evolution]) ?_
  intro m hm
  obtain rfl : m = prior := by simpa [Learner.evolution, EM.learner, EM.new] using hm
  exact EM.Learnt.refl hr hB hn hnn T

/-! ### C55: running again -/

/-- With nothing left to treat a step only rebuilds the model. -/
theorem update_nothing {ch : Choices V} (hch : ch.Ok) {s : EM II} {B : BN V S K} (hr : Represents s.model B) (hB : B.Valid) (hn : B.Normalised)
    (hp : EM.PriorOk s.prior B) (ht : ∀ v ∈ s.trainable, v ∈ B.nodes) (hc : ∀ v ∈ s.trainable, v ∈ s.converged) :
    ∃ m', EM.update ch s = .ok { s with model := m' } ∧ Represents m' B ∧ m'.graph = s.model.graph ∧
      ∀ v ∈ B.nodes, Dict.get? m'.factors v = Dict.get? s.model.factors v := by
  have htodo : ∀ v, v ∉ EM.todo ch s := by
    intro v hv
    obtain ⟨h1, h2⟩ := List.mem_filter.1 (((hch.setOrd _).2 v).1 hv)
    simp at h2
    exact h2 (hc v h1)
  have hz : EM.todo ch s = [] := List.eq_nil_iff_forall_not_mem.2 htodo
  obtain ⟨m', m1, m2, m3, m4, m5, m6⟩ := EM.update_ok hch hr hB hn hp ht (fun _ => []) (fun v hv => absurd hv (htodo v))
    (fun v hv => absurd hv (htodo v)) fun v hv => absurd hv (htodo v)
  have e : (B.reest (EM.todo ch s) fun v => B.expCount v []) = B := by
    rw [hz]; rfl
  rw [e] at m2
  exact ⟨m', m1, m2, m4, fun v hv => m5 v hv (htodo v)⟩

/-- **C55** is false: once all trainable variables have converged, a later run, whatever its data and its number of
iterations, makes no use of the data; the resulting model is the prior. -/
theorem C55_no_learning {ch : Choices V} (hch : ch.Ok) (kl : List (Fl K) → List (Fl K) → Bool) {prior : DagModel (Factor II) V S}
    {B : BN V S K} (hr : Represents prior B) (hB : B.Valid) (hn : B.Normalised)
    (hdom : ∀ v ∈ B.nodes, Dict.get? prior.domains v = some (some (B.states v)))
    {s : LObj (EM II) (DagModel (Factor II) V S)} (hs : s.core.prior = prior) (hT : s.core.trainable ≠ [])
    (ht : ∀ v ∈ s.core.trainable, v ∈ B.nodes) (hc : SameSet s.core.trainable s.core.converged) (fr : Frame V S) (n : ℕ) :
    ∃ s', (EM.learner ch kl).runF fr n s = .ok s' ∧ s'.core.model.graph = prior.graph ∧
      ∀ v ∈ B.nodes, Dict.get? s'.core.model.factors v = Dict.get? prior.factors v := by
  subst hs
  obtain ⟨m', m1, m2, m3, m4, _⟩ := hr.copy hB
  set c : EM II := { s.core with model := m', data := EM.addMissing B.nodes fr } with hcd
  have hinit : (EM.learner ch kl).init s.core fr = .ok c := by
    show EM.init s.core fr = _
    rw [EM.init, m1, py_ok_bind, hr.nodes]
    simp only [hT, if_false]
    rfl
  rw [Learner.runF, hinit, py_ok_bind]
  cases n with
  | zero => exact ⟨_, rfl, m3, fun v _ => by show Dict.get? m'.factors v = _; rw [m4]⟩
  | succ n =>
    obtain ⟨m2', u1, u2, u3, u4⟩ := update_nothing hch (s := c) m2 hB hn (priorOk_of hr hdom) ht hc.1
    have hstop : ∀ evo, EM.stop kl { c with model := m2' } evo = .ok ({ c with model := m2' }, true) := by
      intro evo
      have key : ∀ vs : List V, (∀ v ∈ vs, v ∈ s.core.converged) → vs.foldlM (fun conv v =>
          if v ∈ conv then (.ok conv : Py (List V)) else do
            let m1 ← EM.fromEnd evo 2
            let p ← EM.tableOf m1 v
            let m2 ← EM.fromEnd evo 1
            let q ← EM.tableOf m2 v
            if kl p q then return conv ++ [v] else return conv) s.core.converged = .ok s.core.converged := by
        intro vs
        induction vs with
        | nil => intro _; rfl
        | cons v vs ih =>
          intro hvs
          rw [List.foldlM_cons, if_pos (hvs v List.mem_cons_self), py_ok_bind]
          exact ih fun w hw => hvs w (List.mem_cons_of_mem _ hw)
      rw [EM.stop]
      have := key s.core.trainable hc.1
      show (List.foldlM _ s.core.converged s.core.trainable >>= _) = _
      rw [this, py_ok_bind]
      simp only [hcd, hc, decide_true]
      rfl
    rw [Learner.loopF, Learner.step]
    show ∃ s', (((EM.update ch c >>= _) : Py _) >>= _) = _ ∧ _
    rw [u1]
    simp only [py_ok_bind, pure, Except.pure, Learner.check]
    show ∃ s', (((EM.stop kl { c with model := m2' } _ >>= _) : Py _) >>= _) = _ ∧ _
    rw [hstop]
    refine ⟨_, rfl, ?_, fun v hv => ?_⟩
    · show m2'.graph = _
      rw [u3]; exact m3
    · show Dict.get? m2'.factors v = _
      rw [u4 v hv]
      show Dict.get? m'.factors v = _
      rw [m4]

/-- **C55 (partial)** as long as no variable has been marked as converged, a further run starts like the run of a fresh
object: the state after `initialize` is the same and so is the model after the first step. (The full statement, for the
whole run, is false: see `C55_no_learning` and `C55_stops_early`.) -/
theorem C55_first_step_partial (ch : Choices V) (kl : List (Fl K) → List (Fl K) → Bool)
    {s : LObj (EM II) (DagModel (Factor II) V S)} (hc : s.core.converged = []) (fr : Frame V S) :
    let fresh := EM.new s.core.prior (some s.core.trainable)
    (EM.learner ch kl).init s.core fr = (EM.learner ch kl).init fresh fr ∧
      ∀ c, (EM.learner ch kl).init s.core fr = .ok c →
        ((EM.learner ch kl).step ⟨c, s.evo⟩).map (fun x => x.core) = ((EM.learner ch kl).step ⟨c, none⟩).map fun x => x.core := by
  refine ⟨?_, fun c _ => ?_⟩
  · show EM.init s.core fr = EM.init (EM.new s.core.prior (some s.core.trainable)) fr
    rw [EM.init, EM.init]
    show (DagModel.ofDict s.core.prior.graph s.core.prior.factors true >>= _) = (DagModel.ofDict s.core.prior.graph s.core.prior.factors true >>= _)
    cases DagModel.ofDict s.core.prior.graph s.core.prior.factors true with
    | error e => rfl
    | ok m =>
      rw [py_ok_bind, py_ok_bind]
      simp only [EM.new, Option.getD_some]
      rw [hc]
      rfl
  · rw [Learner.step, Learner.step]
    show Except.map _ (EM.update ch c >>= _) = Except.map _ (EM.update ch c >>= _)
    cases EM.update ch c with
    | error e => rfl
    | ok c' => rfl

end Verif.Props
