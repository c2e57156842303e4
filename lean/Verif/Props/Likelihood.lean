import Verif.Learn.EMLik
import Verif.Props.LearningEx

/-!
# The likelihood during expectation maximisation (C58)
-/

set_option linter.unusedSectionVars false
set_option linter.unusedSimpArgs false

namespace Verif.Props
open Verif

/-- The observed values of a record. -/
def recObs {V S : Type} (r : Rec V S) : Obs V S := r.filterMap fun p => p.2.map fun s => (p.1, s)

/-- The likelihood of the records: the product of the probabilities of what is observed in them. -/
noncomputable def likelihood {V S K : Type} [DecidableEq V] [DecidableEq S] [Nonempty S] [CommSemiring K] (B : BN V S K) (rows : List (Rec V S)) : K :=
  (rows.map fun r => B.marg (Dict.keys (recObs r)) (asg (recObs r))).prod

section
variable {V S K : Type} [DecidableEq V] [DecidableEq S] [Nonempty S] [Field K] [LinearOrder K] [IsStrictOrderedRing K] {vt : VType}

local notation "II" => (storeOf vt : StoreImpl V S (Fl K))

theorem keys_recObs (r : Rec V S) : Dict.keys (recObs r) = Rec.observed r := by
  rw [recObs, Rec.observed, Dict.keys]
  induction r with
  | nil => rfl
  | cons p r ih =>
    rw [List.filterMap_cons]
    cases h : p.2 with
    | none => simpa [h] using ih
    | some s => simpa [h] using ih

theorem get?_recObs {r : Rec V S} (hr : (Dict.keys r).Nodup) {v : V} {s : S} (h : Dict.get? (recObs r) v = some s) :
    Rec.val r v = some s := by
  obtain ⟨p, hp, he⟩ := List.mem_filterMap.1 (Dict.mem_of_get? h)
  rw [Option.map_eq_some_iff] at he
  obtain ⟨t, ht, he⟩ := he
  injection he with h1 h2
  subst h1 h2
  rw [Rec.val, Dict.get?_of_mem (k := p.1) (v := p.2) hr hp, ht]
  rfl

/-- The probability of a record. -/
theorem marg_rec {B : BN V S K} (hB : B.Valid) {r : Rec V S} (hr : (Dict.keys r).Nodup) {a : V → S}
    (ha : ∀ v s, Rec.val r v = some s → a v = s) : B.marg (Dict.keys (recObs r)) (asg (recObs r)) = B.marg (Rec.observed r) a := by
  rw [← keys_recObs]
  refine hB.marg_dep _ _ _ fun v hv => ?_
  obtain ⟨s, hs⟩ := Option.isSome_iff_exists.1 (Dict.get?_isSome.2 hv)
  rw [asg, over_of_get? hs, ha v s (get?_recObs hr hs)]

/-- What the counts of a hidden root are, in terms of possible assignments with the observed values. -/
theorem em_rows {B0 B : BN V S K} {g : DiGraph V} (hg : g.WF) (hgn : g.nodes = B0.nodes)
    (hge : ∀ v ∈ B0.nodes, ∀ p, p ∈ B0.parents v ↔ (p, v) ∈ g.edges) {fr : Frame V S} {T : List V} (hd0 : RootData B0 g fr T)
    (h : EM.Net B0 T fr.rows B) (hu : ∀ r ∈ fr.rows, ∀ r' ∈ fr.rows, Rec.observed r = Rec.observed r') :
    ∃ f : Rec V S → List V × (V → S),
      (∀ r ∈ fr.rows, (f r).1 = Rec.observed r ∧ B.InStates (f r).2 ∧ 0 < B.joint (f r).2 ∧ ∀ v s, Rec.val r v = some s → (f r).2 v = s) ∧
      (∀ v ∈ T, ∀ r ∈ fr.rows, v ∉ (f r).1) ∧
      (∀ v ∈ T, ∀ b : V → S, b v ∈ B.states v → B.expCount v (weighted g fr v) b =
        ((fr.rows.map f).map fun r => B.marg (v :: r.1) (upd r.2 v (b v)) / B.marg r.1 r.2).sum) ∧
      ∀ v ∈ T, ∀ b : V → S, ((B.states v).map fun s => B.expCount v (weighted g fr v) (upd b v s)).sum = (fr.rows.length : K) := by
  classical
  have hd := h.data hd0
  have hB := h.valid
  let f : Rec V S → List V × (V → S) := fun r => (Rec.observed r, if hp : Possible B r then hp.choose else fun _ => Classical.arbitrary S)
  have fp : ∀ r ∈ fr.rows, B.InStates (f r).2 ∧ 0 < B.joint (f r).2 ∧ ∀ v s, Rec.val r v = some s → (f r).2 v = s := by
    intro r hr
    have hp := h.possible r hr
    have e : (f r).2 = hp.choose := dif_pos hp
    rw [e]
    exact hp.choose_spec
  have hgn' : g.nodes = B.nodes := hgn.trans h.nodes.symm
  have hge' : ∀ v ∈ B.nodes, ∀ p, p ∈ B.parents v ↔ (p, v) ∈ g.edges := by rw [h.nodes, h.parents]; exact hge
  have hcount : ∀ v ∈ T, ∀ b : V → S, b v ∈ B.states v → B.expCount v (weighted g fr v) b =
      ((fr.rows.map f).map fun r => B.marg (v :: r.1) (upd r.2 v (b v)) / B.marg r.1 r.2).sum := by
    intro v hv b hb
    rw [expCount_rows hd hu hv, List.map_map]
    congr 1
    refine List.map_congr_left fun r hr => ?_
    obtain ⟨h1, h2, h3⟩ := fp r hr
    exact post_dsepFilter hB h.norm h.nonneg hg hgn' hge' hd.wf.nodup hd.cols (hd.wf.keys r hr) (hd.nodes v hv)
      (hd.hidden v hv r hr) h1 h2 h3 hb
  have hvO : ∀ v ∈ T, ∀ r ∈ fr.rows, v ∉ Rec.observed r := by
    intro v hv r hr hc
    rw [observed_eq hd.wf.nodup (hd.wf.keys r hr)] at hc
    have := (List.mem_filter.1 hc).2
    rw [hd.hidden v hv r hr] at this
    cases this
  have htotal : ∀ v ∈ T, ∀ b : V → S, ((B.states v).map fun s => B.expCount v (weighted g fr v) (upd b v s)).sum = (fr.rows.length : K) := by
    intro v hv b
    rw [List.map_congr_left fun s hs => hcount v hv (upd b v s) (by rw [upd_same]; exact hs), sum_map_comm]
    rw [List.map_map, List.map_congr_left (g := fun _ => (1 : K))]
    · simp
    · intro r hr
      obtain ⟨h1, h2, h3⟩ := fp r hr
      show ((B.states v).map fun s => B.marg (v :: (f r).1) (upd (f r).2 v (upd b v s v)) / B.marg (f r).1 (f r).2).sum = 1
      simp only [upd_same, div_eq_mul_inv]
      rw [List.sum_map_mul_right]
      have := hB.sum_marg (T := [v]) (W := (f r).1) (by simpa using hd.nodes v hv) (by simp) (by simpa using hvO v hv r hr) (f r).2
      rw [sumOver_cons] at this
      simp only [sumOver_nil] at this
      rw [show ((B.states v).map fun s => B.marg (v :: (f r).1) (upd (f r).2 v s)).sum = _ from this]
      exact mul_inv_cancel₀ (BN.marg_pos hB h.nonneg _ h1 h2).ne'
  exact ⟨f, fun r hr => ⟨rfl, fp r hr⟩, hvO, hcount, htotal⟩

/-- The likelihood in terms of these assignments. -/
theorem likelihood_rows {B : BN V S K} (hB : B.Valid) {fr : Frame V S} (hwf : fr.WF) {f : Rec V S → List V × (V → S)}
    (hf : ∀ r ∈ fr.rows, (f r).1 = Rec.observed r ∧ ∀ v s, Rec.val r v = some s → (f r).2 v = s) :
    likelihood B fr.rows = ((fr.rows.map f).map fun r => B.marg r.1 r.2).prod := by
  rw [likelihood, List.map_map]
  congr 1
  refine List.map_congr_left fun r hr => ?_
  rw [Function.comp_apply, (hf r hr).1]
  exact marg_rec hB (by rw [hwf.keys r hr]; exact hwf.nodup) (hf r hr).2

/-- Re-estimating hidden roots does not lower the likelihood. -/
theorem likelihood_reest [Archimedean K] {B0 B : BN V S K} {g : DiGraph V} (hg : g.WF) (hgn : g.nodes = B0.nodes)
    (hge : ∀ v ∈ B0.nodes, ∀ p, p ∈ B0.parents v ↔ (p, v) ∈ g.edges) {fr : Frame V S} {T vs : List V} (hd0 : RootData B0 g fr T)
    (h : EM.Net B0 T fr.rows B) (hvs : ∀ v ∈ vs, v ∈ T)
    (hu : ∀ r ∈ fr.rows, ∀ r' ∈ fr.rows, Rec.observed r = Rec.observed r') :
    likelihood B fr.rows ≤ likelihood (B.reest vs fun v => B.expCount v (weighted g fr v)) fr.rows := by
  have hd := h.data hd0
  have hN := h.reest hd0 hvs
  set B' := B.reest vs fun v => B.expCount v (weighted g fr v) with hB'
  have hB := h.valid
  have hkeys : ∀ r ∈ fr.rows, (Dict.keys r).Nodup := fun r hr => by rw [hd.wf.keys r hr]; exact hd.wf.nodup
  obtain ⟨f, fp, hvO, hcount, htotal⟩ := em_rows hg hgn hge hd0 h hu
  have hlen : (fr.rows.length : K) ≠ 0 := Nat.cast_ne_zero.2 (by simpa using hd.rows)
  have key := em_monotone_prod hB hN.valid h.norm hN.norm h.nonneg hN.nonneg rfl rfl (vs := vs) (fun v hv => hd.roots v (hvs v hv))
    (fun v hv => hd.roots v (hvs v hv)) (fun v _ hv => by funext b; exact if_neg hv) (rows := fr.rows.map f) (by simpa using hd.rows)
    (by
      intro r hr
      obtain ⟨r, hm, rfl⟩ := List.mem_map.1 hr
      obtain ⟨_, h1, h2, h3⟩ := fp r hm
      exact ⟨h1, h2, fun v hv => hvO v (hvs v hv) r hm⟩)
    (by
      intro v hv b hb
      have e : B'.table v b = B.expCount v (weighted g fr v) b / (fr.rows.length : K) := by
        show (if v ∈ vs then _ else _) = _
        rw [if_pos hv, htotal v (hvs v hv) b]
      rw [e, List.length_map, div_mul_cancel₀ _ hlen]
      exact hcount v (hvs v hv) b (hb v (hd.nodes v (hvs v hv))))
    (by
      intro r hr
      obtain ⟨r, hm, rfl⟩ := List.mem_map.1 hr
      exact BN.marg_pos hB h.nonneg _ (fp r hm).2.1 (fp r hm).2.2.1)
    (by
      intro r hr
      obtain ⟨r, hm, rfl⟩ := List.mem_map.1 hr
      obtain ⟨a, a1, a2, a3⟩ := hN.possible r hm
      rw [(fp r hm).1, ← marg_rec hN.valid (hkeys r hm) (fp r hm).2.2.2, marg_rec hN.valid (hkeys r hm) a3]
      exact BN.marg_pos hN.valid hN.nonneg _ a1 a2)
  rw [likelihood_rows hB hd.wf fun r hr => ⟨(fp r hr).1, (fp r hr).2.2.2⟩, likelihood_rows hN.valid hd.wf fun r hr => ⟨(fp r hr).1, (fp r hr).2.2.2⟩]
  exact key

theorem likelihood_addMissing (B : BN V S K) (vs : List V) (fr : Frame V S) :
    likelihood B (EM.addMissing vs fr).rows = likelihood B fr.rows := by
  have h : ∀ (r : Rec V S) (l : List V), recObs (r ++ l.map fun v => (v, none)) = recObs r := by
    intro r l
    rw [recObs, recObs, List.filterMap_append]
    have : (l.map fun v => ((v, none) : V × Option S)).filterMap (fun p => p.2.map fun s => (p.1, s)) = [] := by
      rw [List.filterMap_map]
      simp [Function.comp_def]
    rw [this, List.append_nil]
  rw [likelihood, likelihood, EM.addMissing]
  simp only [List.map_map, Function.comp_def, h]

/-- **C58 (partial)** a step from any state that learning the roots `T` can reach does not lower the likelihood of the
records, when the same columns are observed in all of them.  (The full statement has no such condition; it is false, see
`C58_mixed`.) -/
theorem C58_step_partial [Archimedean K] {ch : Choices V} (hch : ch.Ok) {prior : DagModel (Factor II) V S} {B0 : BN V S K} (hr : Represents prior B0)
    (hdom : ∀ v ∈ B0.nodes, Dict.get? prior.domains v = some (some (B0.states v)))
    {T : List V} {fr : Frame V S} (hd : RootData B0 prior.graph fr T) (hu : ∀ r ∈ fr.rows, ∀ r' ∈ fr.rows, Rec.observed r = Rec.observed r')
    {c : EM II} (hc : EM.CoreOk prior B0 T fr c) :
    ∃ (m' : DagModel (Factor II) V S) (B B' : BN V S K), EM.update ch c = .ok { c with model := m' } ∧ Represents c.model B ∧ Represents m' B' ∧
      EM.CoreOk prior B0 T fr { c with model := m' } ∧ likelihood B fr.rows ≤ likelihood B' fr.rows := by
  obtain ⟨B, b1, b2, b3⟩ := hc.model
  obtain ⟨m', m1, m2, m3, m4, m5⟩ := EM.step_net hch (priorOk_of hr hdom) hd hc.isPrior hc.trainable hc.data hc.graph b1 b2
  refine ⟨m', B, _, m1, b2, m3, ⟨hc.isPrior, hc.trainable, hc.data, m2, _, m4, m3, fun v hv hvT => by rw [m5 v hv hvT]; exact b3 v hv hvT⟩, ?_⟩
  exact likelihood_reest hr.wf hr.nodes hr.parents hd b1 (fun v hv => hc.trainable ▸ EM.todo_sub hch c v hv) hu

/-- What holds during a run: the recorded models have non-decreasing likelihoods. -/
def Chain (ch : Choices V) (kl : List (Fl K) → List (Fl K) → Bool) (B0 : BN V S K) (T : List V) (fr : Frame V S)
    (s : LObj (EM II) (DagModel (Factor II) V S)) : Prop :=
  ∃ (Bs : List (BN V S K)) (B : BN V S K), List.Forall₂ Represents ((EM.learner ch kl).evolution s) (Bs ++ [B]) ∧ EM.Net B0 T fr.rows B ∧
    Represents s.core.model B ∧ ((Bs ++ [B]).map fun B => likelihood B fr.rows).Pairwise (· ≤ ·) ∧ (Bs ++ [B]).head? = some B0

theorem pairwise_concat_le {l : List K} {x y : K} (h : (l ++ [x]).Pairwise (· ≤ ·)) (hxy : x ≤ y) : (l ++ [x] ++ [y]).Pairwise (· ≤ ·) := by
  refine List.pairwise_append.2 ⟨h, List.pairwise_singleton _ _, fun z hz w hw => ?_⟩
  obtain rfl : w = y := by simpa using hw
  rcases List.mem_append.1 hz with hz | hz
  · exact ((List.pairwise_append.1 h).2.2 z hz x (by simp)).trans hxy
  · obtain rfl : z = x := by simpa using hz
    exact hxy

theorem Chain.step [Archimedean K] {ch : Choices V} (hch : ch.Ok) {kl : List (Fl K) → List (Fl K) → Bool} {prior : DagModel (Factor II) V S} {B0 : BN V S K}
    (hr : Represents prior B0) (hdom : ∀ v ∈ B0.nodes, Dict.get? prior.domains v = some (some (B0.states v)))
    {T : List V} {fr : Frame V S} (hd : RootData B0 prior.graph fr T) (hu : ∀ r ∈ fr.rows, ∀ r' ∈ fr.rows, Rec.observed r = Rec.observed r')
    {s s1 s2 : LObj (EM II) (DagModel (Factor II) V S)} {b : Bool} (ho : EM.ObjOk ch kl prior B0 T fr s) (h : Chain ch kl B0 T fr s)
    (h1 : (EM.learner ch kl).step s = .ok s1) (h2 : (EM.learner ch kl).check s1 = .ok (s2, b)) : Chain ch kl B0 T fr s2 := by
  obtain ⟨Bs, B, k1, k2, k3, k4, k5⟩ := h
  have hc := ho.core
  obtain ⟨m', m1, m2, m3, m4, m5⟩ := EM.step_net hch (priorOk_of hr hdom) hd hc.isPrior hc.trainable hc.data hc.graph k2 k3
  have hstep : s1 = (EM.learner ch kl).record { s with core := { s.core with model := m' } } := by
    rw [Learner.step] at h1
    have h1' : (EM.update ch s.core >>= fun c => pure ((EM.learner ch kl).record { s with core := c })) = Except.ok s1 := h1
    rw [m1] at h1'
    injection h1' with h1'
    exact h1'.symm
  have hev : (EM.learner ch kl).evolution s1 = (EM.learner ch kl).evolution s ++ [m'] := by
    rw [hstep]; rfl
  have hs2 : (EM.learner ch kl).evolution s2 = (EM.learner ch kl).evolution s1 ∧ s2.core.model = s1.core.model := by
    have h2' : (EM.stop kl s1.core ((EM.learner ch kl).evolution s1) >>= fun p => pure
        ((⟨p.1, some ((EM.learner ch kl).evolution s1)⟩ : LObj (EM II) (DagModel (Factor II) V S)), p.2)) = Except.ok (s2, b) := h2
    rw [EM.stop] at h2'
    cases hf : s1.core.trainable.foldlM (fun conv v =>
        if v ∈ conv then (.ok conv : Py (List V)) else do
          let m1 ← EM.fromEnd ((EM.learner ch kl).evolution s1) 2
          let p ← EM.tableOf m1 v
          let m2 ← EM.fromEnd ((EM.learner ch kl).evolution s1) 1
          let q ← EM.tableOf m2 v
          if kl p q then return conv ++ [v] else return conv) s1.core.converged with
    | error e => rw [hf] at h2'; cases h2'
    | ok conv =>
      rw [hf] at h2'
      injection h2' with h2'
      injection h2' with h2' _
      rw [← h2']
      exact ⟨rfl, rfl⟩
  refine ⟨Bs ++ [B], _, ?_, m4, ?_, ?_, by rw [List.head?_append, k5]; rfl⟩
  · rw [hs2.1, hev]
    exact List.rel_append k1 (List.Forall₂.cons m3 .nil)
  · rw [hs2.2, hstep]; exact m3
  · have hl := likelihood_reest hr.wf hr.nodes hr.parents hd k2 (fun v hv => hc.trainable ▸ EM.todo_sub hch s.core v hv) hu
    rw [List.map_append, List.map_append] at *
    exact pairwise_concat_le k4 hl

/-- A run of a new object, with what is known of the recorded models -/
theorem run_chain [Archimedean K] {ch : Choices V} (hch : ch.Ok) (kl : List (Fl K) → List (Fl K) → Bool) {prior : DagModel (Factor II) V S}
    {B0 : BN V S K} (hr : Represents prior B0) (hB : B0.Valid) (hn : B0.Normalised) (hnn : B0.NonNeg)
    (hdom : ∀ v ∈ B0.nodes, Dict.get? prior.domains v = some (some (B0.states v)))
    {T : List V} (hT : T ≠ []) {fr : Frame V S} (hd : RootData B0 prior.graph fr T) (hpos : ∀ r ∈ fr.rows, Possible B0 r)
    (hu : ∀ r ∈ fr.rows, ∀ r' ∈ fr.rows, Rec.observed r = Rec.observed r') (n : ℕ) :
    ∃ s' : LObj (EM II) (DagModel (Factor II) V S), (EM.learner ch kl).runF fr n ⟨EM.new prior (some T), none⟩ = .ok s' ∧
      Chain ch kl B0 T (EM.addMissing B0.nodes fr) s' := by
  have heff : EM.effective (EM.new prior (some T)).trainable B0.nodes fr = T := by
    rw [EM.effective, EM.new]; exact if_neg hT
  obtain ⟨c, c1, c2⟩ := EM.ObjOk.init (ch := ch) (kl := kl) (s := ⟨EM.new prior (some T), none⟩) hr hB hn hnn hpos rfl heff (by intro l hl; cases hl)
  set fr' := EM.addMissing B0.nodes fr with hfr
  have hd' := hd.addMissing hB.nodes
  have hu' : ∀ r ∈ fr'.rows, ∀ r' ∈ fr'.rows, Rec.observed r = Rec.observed r' := by
    intro r h1 r' h2
    obtain ⟨r, h3, rfl⟩ := List.mem_map.1 h1
    obtain ⟨r', h4, rfl⟩ := List.mem_map.1 h2
    rw [observed_missing, observed_missing]
    exact hu r h3 r' h4
  have hch0 : Chain ch kl B0 T fr' (⟨c, none⟩ : LObj (EM II) (DagModel (Factor II) V S)) := by
    obtain ⟨m', m1, m2, m3, m4, m5⟩ := hr.copy hB
    have hc : c = { EM.new prior (some T) with model := m', data := fr', trainable := T } := by
      have h1 : EM.init (EM.new prior (some T)) fr = .ok c := c1
      have h2 : EM.init (EM.new prior (some T)) fr = .ok { EM.new prior (some T) with model := m', data := fr', trainable := T } := by
        rw [EM.init]
        show (DagModel.ofDict prior.graph prior.factors true >>= _) = _
        rw [m1, py_ok_bind]
        have ht : (if (EM.new prior (some T) : EM II).trainable = [] then ((EM.addMissing prior.graph.nodes fr).cols.filter
            (EM.addMissing prior.graph.nodes fr).hasNa) else (EM.new prior (some T) : EM II).trainable) = T := if_neg hT
        show Except.ok (EM.mk prior m' (if (EM.new prior (some T) : EM II).trainable = [] then ((EM.addMissing prior.graph.nodes fr).cols.filter
            (EM.addMissing prior.graph.nodes fr).hasNa) else (EM.new prior (some T) : EM II).trainable) _ (EM.addMissing prior.graph.nodes fr)) = _
        rw [ht, hr.nodes]
        rfl
      rw [h1] at h2
      injection h2
    refine ⟨[], B0, ?_, ?_, ?_, List.pairwise_singleton _ _, rfl⟩
    · show List.Forall₂ Represents [c.prior] [B0]
      rw [c2.core.isPrior]
      exact .cons hr .nil
    · refine ⟨hB, hn, hnn, rfl, rfl, rfl, fun _ _ _ => rfl, fun r' hr' => ?_⟩
      obtain ⟨r, hr0, rfl⟩ := List.mem_map.1 hr'
      obtain ⟨a, a1, a2, a3⟩ := hpos r hr0
      exact ⟨a, a1, a2, fun v s hs => a3 v s (by rw [val_missing] at hs; exact hs)⟩
    · rw [hc]; exact m2
  have loop : ∀ (n : ℕ) (s : LObj (EM II) (DagModel (Factor II) V S)), EM.ObjOk ch kl prior B0 T fr' s → Chain ch kl B0 T fr' s →
      ∃ s', (EM.learner ch kl).loopF n s = .ok s' ∧ Chain ch kl B0 T fr' s' := by
    intro n
    induction n with
    | zero => intro s _ h; exact ⟨s, rfl, h⟩
    | succ n ih =>
      intro s ho h
      obtain ⟨s1, s2, b, h1, h2, h3⟩ := ho.step hch (priorOk_of hr hdom) hd'
      have h4 := Chain.step hch hr hdom hd' hu' ho h h1 h2
      rw [Learner.loopF, h1, py_ok_bind, h2, py_ok_bind]
      cases b with
      | true => exact ⟨s2, rfl, h4⟩
      | false => exact ih s2 h3 h4
  obtain ⟨s', s1, h⟩ := loop n _ c2 hch0
  refine ⟨s', ?_, h⟩
  rw [Learner.runF, c1, py_ok_bind]; exact s1

/-- **C58 (partial)** in a run of a new object the likelihoods of the recorded models, from the prior to the last one, do
not decrease; same condition as before. -/
theorem C58_run_partial [Archimedean K] {ch : Choices V} (hch : ch.Ok) (kl : List (Fl K) → List (Fl K) → Bool) {prior : DagModel (Factor II) V S}
    {B0 : BN V S K} (hr : Represents prior B0) (hB : B0.Valid) (hn : B0.Normalised) (hnn : B0.NonNeg)
    (hdom : ∀ v ∈ B0.nodes, Dict.get? prior.domains v = some (some (B0.states v)))
    {T : List V} (hT : T ≠ []) {fr : Frame V S} (hd : RootData B0 prior.graph fr T) (hpos : ∀ r ∈ fr.rows, Possible B0 r)
    (hu : ∀ r ∈ fr.rows, ∀ r' ∈ fr.rows, Rec.observed r = Rec.observed r') (n : ℕ) :
    ∃ (s' : LObj (EM II) (DagModel (Factor II) V S)) (Bs : List (BN V S K)), (EM.learner ch kl).runF fr n ⟨EM.new prior (some T), none⟩ = .ok s' ∧
      List.Forall₂ Represents ((EM.learner ch kl).evolution s') Bs ∧ (Bs.map fun B => likelihood B fr.rows).Pairwise (· ≤ ·) := by
  obtain ⟨s', s1, Bs, B, k1, _, _, k4, _⟩ := run_chain hch kl hr hB hn hnn hdom hT hd hpos hu n
  refine ⟨s', _, s1, k1, ?_⟩
  simp only [likelihood_addMissing] at k4
  exact k4

/-- **C58 (partial)** the model that a run of a new object ends with has the graph, the states and the other tables of the
prior and at least its likelihood; same condition as before. -/
theorem C58_end_partial [Archimedean K] {ch : Choices V} (hch : ch.Ok) (kl : List (Fl K) → List (Fl K) → Bool) {prior : DagModel (Factor II) V S}
    {B0 : BN V S K} (hr : Represents prior B0) (hB : B0.Valid) (hn : B0.Normalised) (hnn : B0.NonNeg)
    (hdom : ∀ v ∈ B0.nodes, Dict.get? prior.domains v = some (some (B0.states v)))
    {T : List V} (hT : T ≠ []) {fr : Frame V S} (hd : RootData B0 prior.graph fr T) (hpos : ∀ r ∈ fr.rows, Possible B0 r)
    (hu : ∀ r ∈ fr.rows, ∀ r' ∈ fr.rows, Rec.observed r = Rec.observed r') (n : ℕ) :
    ∃ (s' : LObj (EM II) (DagModel (Factor II) V S)) (B : BN V S K), (EM.learner ch kl).runF fr n ⟨EM.new prior (some T), none⟩ = .ok s' ∧
      Represents s'.core.model B ∧ B.Valid ∧ B.Normalised ∧ B.NonNeg ∧ B.nodes = B0.nodes ∧ B.parents = B0.parents ∧ B.states = B0.states ∧
      (∀ v ∈ B0.nodes, v ∉ T → B.table v = B0.table v) ∧ likelihood B0 fr.rows ≤ likelihood B fr.rows := by
  obtain ⟨s', s1, Bs, B, _, k2, k3, k4, k5⟩ := run_chain hch kl hr hB hn hnn hdom hT hd hpos hu n
  refine ⟨s', B, s1, k3, k2.valid, k2.norm, k2.nonneg, k2.nodes, k2.parents, k2.states, k2.same, ?_⟩
  simp only [likelihood_addMissing] at k4
  cases Bs with
  | nil =>
    have : B = B0 := by simpa using k5
    rw [this]
  | cons C Bs =>
    have : C = B0 := by simpa using k5
    subst this
    rw [List.map_append, List.map_cons, List.cons_append] at k4
    exact (List.pairwise_cons.1 k4).1 _ (by simp)

/-- The likelihood, computed with some states for what is not observed. -/
def likAt (B : BN V S K) (d : S) (rows : List (Rec V S)) : K :=
  (rows.map fun r => B.marg (Dict.keys (recObs r)) fun v => (Dict.get? (recObs r) v).getD d).prod

theorem likelihood_eq_likAt {B : BN V S K} (hB : B.Valid) (d : S) (rows : List (Rec V S)) : likelihood B rows = likAt B d rows := by
  rw [likelihood, likAt]
  congr 1
  refine List.map_congr_left fun r _ => hB.marg_dep _ _ _ fun v hv => ?_
  obtain ⟨s, hs⟩ := Option.isSome_iff_exists.1 (Dict.get?_isSome.2 hv)
  rw [asg, over_of_get? hs, hs]
  rfl

end

/-! ### Witness and example -/

/-- `U → X`, `U → Y` -/
def gUXY : DiGraph Char := ⟨['U', 'X', 'Y'], [('U', 'X'), ('U', 'Y')]⟩

/-- `X` equals `U`, `Y` is always `b` -/
def rowsUXY : List Row :=
  [([('U', ['a', 'b'])], [q (2/3), q (1/3)], 'U'),
   ([('U', ['a', 'b']), ('X', ['a', 'b'])], [q 1, q 0, q 0, q 1], 'X'),
   ([('U', ['a', 'b']), ('Y', ['a', 'b'])], [q 0, q 1, q 0, q 1], 'Y')]

/-- Three records; in the first one `Y` is missing. -/
def frGap : Frame Char Char :=
  ⟨['X', 'Y'], [[('X', some 'a'), ('Y', none)], [('X', some 'a'), ('Y', some 'b')], [('X', some 'b'), ('Y', some 'b')]]⟩

/-- One step: the likelihood before, the likelihood after, the new table of `U`. -/
def stepMixed (vt : VType) : Py (ℚ × ℚ × List (Fl ℚ)) := do
  let m ← netOf vt gUXY rowsUXY
  let s ← (EM.learner (I := IQ vt) chEx klEq).runF frGap 1 ⟨EM.new m (some ['U']), none⟩
  let t ← EM.tableOf s.core.model 'U'
  return (likAt (BN.ofModel (IQ vt) m) 'a' frGap.rows, likAt (BN.ofModel (IQ vt) s.core.model) 'a' frGap.rows, t)

/-- **C58** is false without the condition: the likelihood falls from 4/27 to 9/64.  The record with the missing value also
counts the records that agree with it where it is observed, so the second record counts twice. -/
theorem C58_mixed (vt : VType) : stepMixed vt = .ok (4/27, 9/64, [q (3/4), q (1/4)]) ∧ (9/64 : ℚ) < 4/27 := by
  refine ⟨?_, by norm_num⟩
  cases vt <;> decide +kernel

/-- The hypotheses of `C58_run_partial` are met by the example network and any records of `X`. -/
theorem C58_run_example (vt : VType) (xs : List Char) (h0 : xs ≠ []) (hxs : ∀ x ∈ xs, x = 'a' ∨ x = 'b') (n : ℕ) :
    ∃ m s', ∃ Bs : List (BN Char Char ℚ), netOf vt gUX rowsUX = .ok m ∧
      (EM.learner (I := IQ vt) chEx klEq).runF (frOf xs) n ⟨EM.new m (some ['U']), none⟩ = .ok s' ∧
      List.Forall₂ Represents ((EM.learner chEx klEq).evolution s') Bs ∧ (Bs.map fun B => likelihood B (frOf xs).rows).Pairwise (· ≤ ·) := by
  obtain ⟨m, h1, h2, h3, h4, h5, h6⟩ := ux_net vt
  have hc := uxCheck_ok vt
  rw [uxCheck, h1] at hc
  simp only [decide_eq_true_eq] at hc
  obtain ⟨c1, c2, c3, c4, c5, c6, c7⟩ := hc
  obtain ⟨s', Bs, k1, k2, k3⟩ := C58_run_partial chEx_ok klEq h3 h4 h5 h6 c5 (T := ['U']) (by decide) (fr := frOf xs)
    (by rw [h2]; exact ux_rootData c1 c2 c4 h0 hxs) (ux_possible c1 c3 c4 c6 c7 hxs) (by
      intro r hr r' hr'
      obtain ⟨x, hx, rfl⟩ := List.mem_map.1 hr
      obtain ⟨x, hx, rfl⟩ := List.mem_map.1 hr'
      rfl) n
  exact ⟨m, s', Bs, h1, k1, k2, k3⟩

/-- And the likelihood really grows: from 1/8 to 1859/13824 in the first step. -/
example (vt : VType) : (do
    let m ← netOf vt gUX rowsUX
    let s ← (EM.learner (I := IQ vt) chEx klEq).runF (frOf ['a', 'a', 'b']) 1 ⟨EM.new m (some ['U']), none⟩
    return (likAt (BN.ofModel (IQ vt) m) 'a' (frOf ['a', 'a', 'b']).rows, likAt (BN.ofModel (IQ vt) s.core.model) 'a' (frOf ['a', 'a', 'b']).rows)) =
      (.ok (1/8, 1859/13824) : Py (ℚ × ℚ)) := by
  cases vt <;> decide +kernel

end Verif.Props
