import Verif.Net.EMFixed
import Verif.Props.Likelihood
import Verif.Model.SamplingLemmas

/-!
# What expectation maximisation leaves as it is (C99)
-/

set_option linter.unusedSectionVars false
set_option linter.unusedSimpArgs false

namespace Verif.Props
open Verif

section
variable {V S K : Type} [DecidableEq V] [DecidableEq S] [Nonempty S] [Field K] [LinearOrder K] [IsStrictOrderedRing K] {vt : VType}

local notation "II" => (storeOf vt : StoreImpl V S (Fl K))

/-- `C` is `B` with some other distribution of `v`. -/
structure Variant (B : BN V S K) (v : V) (C : BN V S K) : Prop where
  valid : C.Valid
  norm : C.Normalised
  nonneg : C.NonNeg
  nodes : C.nodes = B.nodes
  parents : C.parents = B.parents
  states : C.states = B.states
  same : ∀ w ∈ B.nodes, w ≠ v → C.table w = B.table w

/-- In `C`, no record is possible together with the state of `v` in `b`. -/
def Excluded (C : BN V S K) (v : V) (rows : List (Rec V S)) (b : V → S) : Prop :=
  ∀ r ∈ rows, ∀ a : V → S, (∀ w s, Rec.val r w = some s → a w = s) → a v = b v → C.marg (v :: Rec.observed r) a = 0

/-- The table of `v` after a step that treats it -/
abbrev newTable (B : BN V S K) (g : DiGraph V) (fr : Frame V S) (v : V) : (V → S) → K :=
  (B.reest [v] fun v => B.expCount v (weighted g fr v)).table v

theorem newTable_eq {B : BN V S K} {g : DiGraph V} {fr : Frame V S} {vs : List V} {v : V} (hv : v ∈ vs) :
    (B.reest vs fun v => B.expCount v (weighted g fr v)).table v = newTable B g fr v := by
  funext b
  show (if v ∈ vs then _ else _) = (if v ∈ [v] then _ else _)
  rw [if_pos hv, if_pos (by simp)]

/-- The new table as mean of posteriors, on assignments that agree with the records. -/
theorem newTable_rows {B0 B : BN V S K} {g : DiGraph V} (hg : g.WF) (hgn : g.nodes = B0.nodes)
    (hge : ∀ v ∈ B0.nodes, ∀ p, p ∈ B0.parents v ↔ (p, v) ∈ g.edges) {fr : Frame V S} {T : List V} (hd0 : RootData B0 g fr T)
    (h : EM.Net B0 T fr.rows B) (hu : ∀ r ∈ fr.rows, ∀ r' ∈ fr.rows, Rec.observed r = Rec.observed r') :
    ∃ f : Rec V S → List V × (V → S),
      (∀ r ∈ fr.rows, (f r).1 = Rec.observed r ∧ B.InStates (f r).2 ∧ 0 < B.joint (f r).2 ∧ ∀ v s, Rec.val r v = some s → (f r).2 v = s) ∧
      (∀ v ∈ T, ∀ r ∈ fr.rows, v ∉ (f r).1) ∧
      ∀ v ∈ T, ∀ b : V → S, B.InStates b → newTable B g fr v b * ((fr.rows.map f).length : K) =
        ((fr.rows.map f).map fun r => B.marg (v :: r.1) (upd r.2 v (b v)) / B.marg r.1 r.2).sum := by
  have hd := h.data hd0
  obtain ⟨f, fp, hvO, hcount, htotal⟩ := em_rows hg hgn hge hd0 h hu
  have hlen : (fr.rows.length : K) ≠ 0 := Nat.cast_ne_zero.2 (by simpa using hd.rows)
  refine ⟨f, fp, hvO, fun v hv b hb => ?_⟩
  have e : newTable B g fr v b = B.expCount v (weighted g fr v) b / (fr.rows.length : K) := by
    show (if v ∈ [v] then _ else _) = _
    rw [if_pos (by simp), htotal v hv b]
  rw [e, List.length_map, div_mul_cancel₀ _ hlen]
  exact hcount v hv b (hb v (hd.nodes v hv))

theorem val_upd {r : Rec V S} {v : V} (hv : Rec.val r v = none) {a : V → S} (ha : ∀ w s, Rec.val r w = some s → a w = s) (x : S) :
    ∀ w s, Rec.val r w = some s → upd a v x w = s := by
  intro w s hs
  rw [upd_ne _ _ (by rintro rfl; rw [hv] at hs; cases hs)]
  exact ha w s hs

/-- A table that a step does not change has the greatest likelihood, among those that are not zero only where this one is not
or no record is possible. -/
theorem fixed_max [Archimedean K] {B0 B C : BN V S K} {g : DiGraph V} (hg : g.WF) (hgn : g.nodes = B0.nodes)
    (hge : ∀ v ∈ B0.nodes, ∀ p, p ∈ B0.parents v ↔ (p, v) ∈ g.edges) {fr : Frame V S} {T : List V} (hd0 : RootData B0 g fr T)
    (h : EM.Net B0 T fr.rows B) (hu : ∀ r ∈ fr.rows, ∀ r' ∈ fr.rows, Rec.observed r = Rec.observed r') {v : V} (hv : v ∈ T)
    (hfix : ∀ b, B.InStates b → newTable B g fr v b = B.table v b) (hC : Variant B v C)
    (hsup : ∀ b, B.InStates b → B.table v b = 0 → C.table v b = 0 ∨ Excluded C v fr.rows b) :
    likelihood C fr.rows ≤ likelihood B fr.rows := by
  have hd := h.data hd0
  obtain ⟨f, fp, hvO, hnew⟩ := newTable_rows hg hgn hge hd0 h hu
  rw [likelihood_rows h.valid hd.wf fun r hr => ⟨(fp r hr).1, (fp r hr).2.2.2⟩,
    likelihood_rows hC.valid hd.wf fun r hr => ⟨(fp r hr).1, (fp r hr).2.2.2⟩]
  refine em_fixed_max h.valid h.nonneg hC.valid hC.norm hC.nonneg hC.nodes hC.states (hd.nodes v hv) (hd.roots v hv)
    (by rw [hC.parents]; exact hd.roots v hv) hC.same ?_ (fun b hb => by rw [← hfix b hb]; exact hnew v hv b hb) fun b hb hz => ?_
  · intro r hr
    obtain ⟨r, hm, rfl⟩ := List.mem_map.1 hr
    obtain ⟨_, h1, h2, h3⟩ := fp r hm
    exact ⟨h1, BN.marg_pos h.valid h.nonneg _ h1 h2, hvO v hv r hm⟩
  · refine (hsup b hb hz).imp_right fun hx r hr => ?_
    obtain ⟨r, hm, rfl⟩ := List.mem_map.1 hr
    rw [(fp r hm).1]
    exact hx r hm _ (val_upd (hd.hidden v hv r hm) (fp r hm).2.2.2 _) (upd_same _ _ _)

/-- A table that a step changes does not have the greatest likelihood. -/
theorem changed_not_max [Archimedean K] {B0 B : BN V S K} {g : DiGraph V} (hg : g.WF) (hgn : g.nodes = B0.nodes)
    (hge : ∀ v ∈ B0.nodes, ∀ p, p ∈ B0.parents v ↔ (p, v) ∈ g.edges) {fr : Frame V S} {T : List V} (hd0 : RootData B0 g fr T)
    (h : EM.Net B0 T fr.rows B) (hu : ∀ r ∈ fr.rows, ∀ r' ∈ fr.rows, Rec.observed r = Rec.observed r') {v : V} (hv : v ∈ T)
    {b0 : V → S} (hb0 : B.InStates b0) (hne : newTable B g fr v b0 ≠ B.table v b0) :
    ∃ C, Variant B v C ∧ (∀ b, B.InStates b → B.table v b = 0 → C.table v b = 0) ∧ likelihood B fr.rows < likelihood C fr.rows := by
  have hd := h.data hd0
  have hN := h.reest hd0 (vs := [v]) (by simpa using hv)
  obtain ⟨f, fp, hvO, hnew⟩ := newTable_rows hg hgn hge hd0 h hu
  have hkeys : ∀ r ∈ fr.rows, (Dict.keys r).Nodup := fun r hr => by rw [hd.wf.keys r hr]; exact hd.wf.nodup
  have hsame : ∀ w ∈ B.nodes, w ≠ v → (B.reest [v] fun v => B.expCount v (weighted g fr v)).table w = B.table w := fun w _ hw => by
    funext b; exact if_neg (by simpa using hw)
  have hrne : fr.rows.map f ≠ [] := by simpa using hd.rows
  refine ⟨_, ⟨hN.valid, hN.norm, hN.nonneg, rfl, rfl, rfl, hsame⟩, fun b hb hz => ?_, ?_⟩
  · by_contra hc
    have hp := lt_of_le_of_ne (hN.nonneg v (hd.nodes v hv) b hb) (Ne.symm hc)
    exact (em_support h.valid h.nonneg (hd.nodes v hv) (hd.roots v hv) hrne hb (hnew v hv b hb) hp).ne' hz
  · rw [likelihood_rows h.valid hd.wf fun r hr => ⟨(fp r hr).1, (fp r hr).2.2.2⟩,
      likelihood_rows hN.valid hd.wf fun r hr => ⟨(fp r hr).1, (fp r hr).2.2.2⟩]
    refine em_strict_prod h.valid hN.valid h.norm hN.norm h.nonneg hN.nonneg rfl rfl (hd.nodes v hv) (hd.roots v hv) (hd.roots v hv) hsame hrne
      ?_ (hnew v hv) ?_ ?_ ⟨b0, hb0, hne⟩
    · intro r hr
      obtain ⟨r, hm, rfl⟩ := List.mem_map.1 hr
      obtain ⟨_, h1, h2, h3⟩ := fp r hm
      exact ⟨h1, h2, hvO v hv r hm⟩
    · intro r hr
      obtain ⟨r, hm, rfl⟩ := List.mem_map.1 hr
      exact BN.marg_pos h.valid h.nonneg _ (fp r hm).2.1 (fp r hm).2.2.1
    · intro r hr
      obtain ⟨r, hm, rfl⟩ := List.mem_map.1 hr
      obtain ⟨a, a1, a2, a3⟩ := hN.possible r hm
      rw [(fp r hm).1, ← marg_rec hN.valid (hkeys r hm) (fp r hm).2.2.2, marg_rec hN.valid (hkeys r hm) a3]
      exact BN.marg_pos hN.valid hN.nonneg _ a1 a2

/-- States that a table has lost in the course of the steps are not possible with any record. -/
theorem excluded_step [Archimedean K] {B0 B C : BN V S K} {g : DiGraph V} (hg : g.WF) (hgn : g.nodes = B0.nodes)
    (hge : ∀ v ∈ B0.nodes, ∀ p, p ∈ B0.parents v ↔ (p, v) ∈ g.edges) {fr : Frame V S} {T : List V} (hd0 : RootData B0 g fr T)
    (h : EM.Net B0 T fr.rows B) (hu : ∀ r ∈ fr.rows, ∀ r' ∈ fr.rows, Rec.observed r = Rec.observed r') {v : V} (hv : v ∈ T)
    (hC : Variant B v C) (hx : ∀ b, B.InStates b → B.table v b = 0 → Excluded C v fr.rows b) {b : V → S} (hb : B.InStates b)
    (hz : newTable B g fr v b = 0) : Excluded C v fr.rows b := by
  have hd := h.data hd0
  by_cases hz0 : B.table v b = 0
  · exact hx b hb hz0
  obtain ⟨f, fp, hvO, hnew⟩ := newTable_rows hg hgn hge hd0 h hu
  have hsum := hnew v hv b hb
  rw [hz, zero_mul, List.map_map] at hsum
  have upd_in : ∀ {a : V → S}, B.InStates a → B.InStates (upd a v (b v)) := by
    intro a ha w hw
    by_cases h : w = v
    · subst h; rw [upd_same]; exact hb _ hw
    · rw [upd_ne _ _ h]; exact ha w hw
  have hpos : ∀ r ∈ fr.rows, 0 < B.marg (f r).1 (f r).2 := fun r hr => BN.marg_pos h.valid h.nonneg _ (fp r hr).2.1 (fp r hr).2.2.1
  have hall : ∀ r ∈ fr.rows, B.marg (v :: (f r).1) (upd (f r).2 v (b v)) = 0 := by
    intro r hr
    have hnn : ∀ x ∈ fr.rows.map ((fun r => B.marg (v :: r.1) (upd r.2 v (b v)) / B.marg r.1 r.2) ∘ f), 0 ≤ x := by
      intro x hx
      obtain ⟨r, hr, rfl⟩ := List.mem_map.1 hx
      exact div_nonneg (BN.marg_nonneg h.valid h.nonneg fun x _ hx => upd_in (fp r hr).2.1 x hx) (hpos r hr).le
    have h0 := le_antisymm ((List.single_le_sum hnn _ (List.mem_map.2 ⟨r, hr, rfl⟩)).trans hsum.symm.le) (hnn _ (List.mem_map.2 ⟨r, hr, rfl⟩))
    exact (div_eq_zero_iff.1 h0).resolve_right (hpos r hr).ne'
  intro r hr a ha hav
  have e : B.marg (v :: Rec.observed r) a = 0 := by
    rw [← hall r hr, (fp r hr).1]
    refine h.valid.marg_dep _ _ _ fun x hx => ?_
    by_cases hxv : x = v
    · subst hxv; rw [upd_same, hav]
    · rw [upd_ne _ _ hxv]
      have hxo : x ∈ Rec.observed r := (List.mem_cons.1 hx).resolve_left hxv
      rw [observed_eq hd.wf.nodup (hd.wf.keys r hr)] at hxo
      obtain ⟨s, hs⟩ := Option.isSome_iff_exists.1 (List.mem_filter.1 hxo).2
      rw [ha x s hs, (fp r hr).2.2.2 x s hs]
  have dep : DependsOn (B.table v) [v] := by have := h.valid.scope v (hd.nodes v hv); rwa [hd.roots v hv] at this
  rw [marg_change h.valid hC.valid hC.nodes hC.states (hd.nodes v hv) (hd.roots v hv) (by rw [hC.parents]; exact hd.roots v hv) hC.same
    (Rec.observed r) a (by rwa [dep a b fun x hx => by rw [List.mem_singleton.1 hx, hav]]), e, mul_zero]

/-- Equal lists of values are equal tables. -/
theorem table_eq_of_tableOf {m m' : DagModel (Factor II) V S} {B B' : BN V S K} (h : Represents m B) (h' : Represents m' B')
    (hn : B'.nodes = B.nodes) (hp : B'.parents = B.parents) (hst : B'.states = B.states) (hB : B.Valid) (hB' : B'.Valid) {v : V} (hv : v ∈ B.nodes)
    (hroot : B.parents v = []) {l : List (Fl K)} (h1 : EM.tableOf m v = .ok l) (h2 : EM.tableOf m' v = .ok l) {b : V → S} (hb : B.InStates b) :
    B'.table v b = B.table v b := by
  obtain ⟨f, _, f1, f2, f3⟩ := h.table v hv
  injection f2 with f2
  subst f2
  obtain ⟨f', _, g1, g2, g3⟩ := h'.table v (hn ▸ hv)
  injection g2 with g2
  subst g2
  have hI : (storeOf vt : StoreImpl V S (Fl K)).Lawful := storeOf_lawful vt
  have dom : ∀ {m : DagModel (Factor II) V S} {B : BN V S K} {f : Factor II}, IsTable B v f → B.parents v = [] → f.dom = [(v, B.states v)] := by
    intro m B f h hr
    have hk : Dict.keys f.dom = [v] := by
      have h1 : ∀ w, w ∈ f.vars ↔ w = v := fun w => by rw [h.vars, hr]; simp
      have h2 : f.vars.Nodup := (h.wf.domOk hI).keys
      have : f.vars.Perm [v] := (List.perm_ext_iff_of_nodup h2 (List.nodup_singleton v)).2 fun w => by rw [h1]; simp
      exact List.perm_singleton.1 this
    cases hd : f.dom with
    | nil => rw [hd] at hk; cases hk
    | cons p d =>
      rw [hd] at hk
      have hpv : p.1 = v ∧ Dict.keys d = [] := by simpa [Dict.keys] using hk
      have : d = [] := by simpa [Dict.keys] using hpv.2
      subst this
      have h3 := h.dom p (by rw [hd]; simp)
      rw [hpv.1] at h3
      rw [← h3, ← hpv.1]
  have d1 := dom (m := m) f3 hroot
  have d2 := dom (m := m) g3 (by rw [hp]; exact hroot)
  rw [hst] at d2
  rw [EM.tableOf, Dict.get, f1] at h1
  rw [EM.tableOf, Dict.get, g1] at h2
  have k1 : f.valuesList = .ok l := h1
  have k2 : f'.valuesList = .ok l := h2
  rw [Factor.valuesList_ok hI f3.wf, d1] at k1
  rw [Factor.valuesList_ok hI g3.wf, d2] at k2
  injection k1 with k1
  injection k2 with k2
  have hbv := hb v hv
  have hmem : [(v, b v)] ∈ assignmentSpace [(v, B.states v)] := by
    rw [assignmentSpace_one]
    exact List.mem_map.2 ⟨b v, hbv, rfl⟩
  have full : FullObs [(v, B.states v)] [(v, b v)] := mem_assignmentSpace_fullObs (by simp [Dict.keys]) hmem
  have e : f.sem (asg [(v, b v)]) = f'.sem (asg [(v, b v)]) := by
    have := k1.trans k2.symm
    exact List.map_inj_left.1 this _ hmem
  have v1 := f3.value [(v, b v)] (by rw [d1]; exact full)
  have v2 := g3.value [(v, b v)] (by rw [d2]; exact full)
  rw [Factor.getValue_full hI f3.wf (by rw [d1]; exact full)] at v1
  rw [Factor.getValue_full hI g3.wf (by rw [d2]; exact full), ← e, v1] at v2
  injection v2 with v2
  injection v2 with v2
  have dep : DependsOn (B.table v) [v] := by have := hB.scope v hv; rwa [hroot] at this
  have dep' : DependsOn (B'.table v) [v] := by have := hB'.scope v (hn ▸ hv); rwa [hp, hroot] at this
  have ea : ∀ x ∈ [v], b x = asg [(v, b v)] x := by
    intro x hx
    rw [List.mem_singleton.1 hx, asg, over_of_get? (s := b v) (by simp [Dict.get?])]
  rw [dep b _ ea, dep' b _ ea, v2]

/-- **C99 (partial)** in a step from any state that learning the roots `T` can reach, a table that is re-estimated stays as it
is exactly when no other distribution of its variable, zero where it is zero, gives the records a greater likelihood.  Same
condition on the records as in `C58_step_partial`. -/
theorem C99_table_partial [Archimedean K] {ch : Choices V} (hch : ch.Ok) {prior : DagModel (Factor II) V S} {B0 : BN V S K} (hr : Represents prior B0)
    (hdom : ∀ v ∈ B0.nodes, Dict.get? prior.domains v = some (some (B0.states v)))
    {T : List V} {fr : Frame V S} (hd : RootData B0 prior.graph fr T) (hu : ∀ r ∈ fr.rows, ∀ r' ∈ fr.rows, Rec.observed r = Rec.observed r')
    {c : EM II} (hc : EM.CoreOk prior B0 T fr c) :
    ∃ (m' : DagModel (Factor II) V S) (B B' : BN V S K), EM.update ch c = .ok { c with model := m' } ∧ Represents c.model B ∧ Represents m' B' ∧
      ∀ v ∈ T, v ∉ c.converged → ((∀ b, B.InStates b → B'.table v b = B.table v b) ↔
        ∀ C, Variant B v C → (∀ b, B.InStates b → B.table v b = 0 → C.table v b = 0) → likelihood C fr.rows ≤ likelihood B fr.rows) := by
  obtain ⟨B, b1, b2, b3⟩ := hc.model
  obtain ⟨m', m1, m2, m3, m4, m5⟩ := EM.step_net hch (priorOk_of hr hdom) hd hc.isPrior hc.trainable hc.data hc.graph b1 b2
  refine ⟨m', B, _, m1, b2, m3, fun v hv hvc => ?_⟩
  have htodo : v ∈ EM.todo ch c := ((hch.setOrd _).2 v).2 (List.mem_filter.2 ⟨hc.trainable ▸ hv, by simpa using hvc⟩)
  rw [newTable_eq htodo]
  constructor
  · intro hfix C hC hz
    exact fixed_max hr.wf hr.nodes hr.parents hd b1 hu hv hfix hC fun b hb h0 => .inl (hz b hb h0)
  · intro hmax b hb
    by_contra hne
    obtain ⟨C, c1, c2, c3⟩ := changed_not_max hr.wf hr.nodes hr.parents hd b1 hu hv hb hne
    exact absurd (hmax C c1 c2) (not_le.2 c3)

theorem fromEnd_one {X : Type} (l : List X) (x : X) : EM.fromEnd (l ++ [x]) 1 = .ok x := by
  rw [EM.fromEnd, if_pos (by simp)]
  simp

theorem fromEnd_two {X : Type} (l : List X) (x y : X) : EM.fromEnd (l ++ [x] ++ [y]) 2 = .ok x := by
  rw [EM.fromEnd, if_pos (by simp)]
  simp

/-- What holds during a run that learns one root and has not converged: zeros of its table exclude the records. -/
def Going (ch : Choices V) (kl : List (Fl K) → List (Fl K) → Bool) (B0 : BN V S K) (v : V) (fr : Frame V S)
    (s : LObj (EM II) (DagModel (Factor II) V S)) : Prop :=
  s.core.converged = [] ∧ ∃ (l : List (DagModel (Factor II) V S)) (m0 : DagModel (Factor II) V S) (B : BN V S K),
    (EM.learner ch kl).evolution s = l ++ [m0] ∧ Represents m0 B ∧ Represents s.core.model B ∧ EM.Net B0 [v] fr.rows B ∧
      ∀ C, Variant B0 v C → ∀ b, B.InStates b → B.table v b = 0 → Excluded C v fr.rows b

/-- What holds when it has converged -/
def Best (B0 : BN V S K) (v : V) (fr : Frame V S) (m : DagModel (Factor II) V S) : Prop :=
  ∃ B : BN V S K, Represents m B ∧ Variant B0 v B ∧ ∀ C, Variant B0 v C → likelihood C fr.rows ≤ likelihood B fr.rows

theorem Variant.of_net {B0 B C : BN V S K} {v : V} {rows : List (Rec V S)} (h : EM.Net B0 [v] rows B) (hC : Variant B0 v C) : Variant B v C :=
  ⟨hC.valid, hC.norm, hC.nonneg, hC.nodes.trans h.nodes.symm, hC.parents.trans h.parents.symm, hC.states.trans h.states.symm,
    fun w hw hwv => by rw [h.nodes] at hw; rw [hC.same w hw hwv, h.same w hw (by simpa using hwv)]⟩

theorem variant_of_net {B0 B : BN V S K} {v : V} {rows : List (Rec V S)} (h : EM.Net B0 [v] rows B) : Variant B0 v B :=
  ⟨h.valid, h.norm, h.nonneg, h.nodes, h.parents, h.states, fun w hw hwv => h.same w hw (by simpa using hwv)⟩

theorem Going.step [Archimedean K] {ch : Choices V} (hch : ch.Ok) {kl : List (Fl K) → List (Fl K) → Bool} (hkl : ∀ p q, kl p q = true → p = q)
    {prior : DagModel (Factor II) V S} {B0 : BN V S K}
    (hr : Represents prior B0) (hdom : ∀ v ∈ B0.nodes, Dict.get? prior.domains v = some (some (B0.states v)))
    {v : V} {fr : Frame V S} (hd : RootData B0 prior.graph fr [v]) (hu : ∀ r ∈ fr.rows, ∀ r' ∈ fr.rows, Rec.observed r = Rec.observed r')
    {s s1 s2 : LObj (EM II) (DagModel (Factor II) V S)} {b : Bool} (ho : EM.ObjOk ch kl prior B0 [v] fr s) (h : Going ch kl B0 v fr s)
    (h1 : (EM.learner ch kl).step s = .ok s1) (h2 : (EM.learner ch kl).check s1 = .ok (s2, b)) :
    (b = true ∧ Best B0 v fr s2.core.model) ∨ (b = false ∧ Going ch kl B0 v fr s2) := by
  obtain ⟨hconv, l, m0, B, k1, k2, k3, k4, k5⟩ := h
  have hc := ho.core
  have hvT : v ∈ [v] := by simp
  obtain ⟨m', m1, m2, m3, m4, m5⟩ := EM.step_net hch (priorOk_of hr hdom) hd hc.isPrior hc.trainable hc.data hc.graph k4 k3
  have htodo : v ∈ EM.todo ch s.core := ((hch.setOrd _).2 v).2 (List.mem_filter.2 ⟨hc.trainable ▸ hvT, by rw [hconv]; rfl⟩)
  have htab := newTable_eq (B := B) (g := prior.graph) (fr := fr) htodo
  have hlik := likelihood_reest hr.wf hr.nodes hr.parents hd k4 (fun v hv => hc.trainable ▸ EM.todo_sub hch s.core v hv) hu
  set B' := B.reest (EM.todo ch s.core) fun v => B.expCount v (weighted prior.graph fr v) with hB'
  have hstep : s1 = (EM.learner ch kl).record { s with core := { s.core with model := m' } } := by
    rw [Learner.step] at h1
    have h1' : (EM.update ch s.core >>= fun c => pure ((EM.learner ch kl).record { s with core := c })) = Except.ok s1 := h1
    rw [m1] at h1'
    injection h1' with h1'
    exact h1'.symm
  have hev : (EM.learner ch kl).evolution s1 = l ++ [m0] ++ [m'] := by
    rw [hstep, ← k1]; rfl
  have hcore : s1.core = { s.core with model := m' } := by rw [hstep]; rfl
  have h2' : (EM.stop kl s1.core ((EM.learner ch kl).evolution s1) >>= fun p => pure
      ((⟨p.1, some ((EM.learner ch kl).evolution s1)⟩ : LObj (EM II) (DagModel (Factor II) V S)), p.2)) = Except.ok (s2, b) := h2
  have hvn : v ∈ B.nodes := by rw [k4.nodes]; exact hd.nodes v hvT
  have hroot : B.parents v = [] := by rw [k4.parents]; exact hd.roots v hvT
  obtain ⟨p, hp⟩ : ∃ p, EM.tableOf m0 v = .ok p := by
    have hm : m0 ∈ (EM.learner ch kl).evolution s := by rw [k1]; simp
    exact (ho.evo m0 hm).tableOf (hd.nodes v hvT)
  obtain ⟨q, hq⟩ : ∃ q, EM.tableOf m' v = .ok q := by
    have : EM.Learnt prior B0 [v] m' := ⟨B', m3, m4.valid, m4.norm, m4.nonneg, m4.nodes, m4.parents, m4.states, fun w hw hwT => ⟨m4.same w hw hwT, by
      obtain ⟨_, _, _, b3⟩ := hc.model
      rw [m5 w hw hwT]; exact b3 w hw hwT⟩⟩
    exact this.tableOf (hd.nodes v hvT)
  rw [EM.stop, hcore] at h2'
  simp only [hc.trainable, hconv, List.foldlM_cons, List.foldlM_nil, hev, fromEnd_one, fromEnd_two, List.not_mem_nil, if_false, py_ok_bind, hp, hq] at h2'
  cases hk : kl p q with
  | true =>
    rw [hk] at h2'
    injection h2' with h2'
    injection h2' with h3 h4
    have hs2 : s2.core.model = m' := by rw [← h3]
    refine .inl ⟨?_, ?_⟩
    · rw [← h4]
      exact decide_eq_true (by simp [SameSet])
    · obtain rfl := hkl p q hk
      have hfix : ∀ b, B.InStates b → newTable B prior.graph fr v b = B.table v b := fun b hb => by
        rw [← htab]
        exact table_eq_of_tableOf k2 m3 rfl rfl rfl k4.valid m4.valid hvn hroot hp hq hb
      refine ⟨B', by rw [hs2]; exact m3, variant_of_net m4, fun C hC => le_trans ?_ hlik⟩
      exact fixed_max hr.wf hr.nodes hr.parents hd k4 hu hvT hfix (hC.of_net k4) fun b hb h0 => .inr (k5 C hC b hb h0)
  | false =>
    rw [hk] at h2'
    injection h2' with h2'
    injection h2' with h3 h4
    refine .inr ⟨?_, by rw [← h3], l ++ [m0], m', B', ?_, m3, by rw [← h3]; exact m3, m4, fun C hC b hb h0 => ?_⟩
    · rw [← h4]
      show decide (SameSet [v] []) = false
      exact decide_eq_false fun hss => absurd (hss.1 v (by simp)) (by simp)
    · rw [← h3]; rfl
    · rw [htab] at h0
      exact excluded_step hr.wf hr.nodes hr.parents hd k4 hu hvT (hC.of_net k4) (k5 C hC) hb h0

/-- **C99 (partial)** a run of a new object that learns one hidden root, from a prior that gives each of its states a positive
probability, and that converges: its last model has the graph, the states and the other tables of the prior, and among all such
models the greatest likelihood of the records.  Same condition on the records as before.  Of the stopping rule it is assumed
that it only accepts equal tables. -/
theorem C99_run_partial [Archimedean K] {ch : Choices V} (hch : ch.Ok) {kl : List (Fl K) → List (Fl K) → Bool} (hkl : ∀ p q, kl p q = true → p = q)
    {prior : DagModel (Factor II) V S}
    {B0 : BN V S K} (hr : Represents prior B0) (hB : B0.Valid) (hn : B0.Normalised) (hnn : B0.NonNeg)
    (hdom : ∀ v ∈ B0.nodes, Dict.get? prior.domains v = some (some (B0.states v)))
    {v : V} {fr : Frame V S} (hd : RootData B0 prior.graph fr [v]) (hpos : ∀ r ∈ fr.rows, Possible B0 r)
    (hu : ∀ r ∈ fr.rows, ∀ r' ∈ fr.rows, Rec.observed r = Rec.observed r') (hv : ∀ b, B0.InStates b → 0 < B0.table v b) (n : ℕ) :
    ∃ s' : LObj (EM II) (DagModel (Factor II) V S), (EM.learner ch kl).runF fr n ⟨EM.new prior (some [v]), none⟩ = .ok s' ∧
      (v ∈ s'.core.converged → ∃ B : BN V S K, Represents s'.core.model B ∧ Variant B0 v B ∧
        ∀ C, Variant B0 v C → likelihood C fr.rows ≤ likelihood B fr.rows) := by
  have hT : [v] ≠ [] := by simp
  have heff : EM.effective (EM.new prior (some [v])).trainable B0.nodes fr = [v] := by
    rw [EM.effective, EM.new]; exact if_neg hT
  obtain ⟨c, c1, c2⟩ := EM.ObjOk.init (ch := ch) (kl := kl) (s := ⟨EM.new prior (some [v]), none⟩) hr hB hn hnn hpos rfl heff (by intro l hl; cases hl)
  set fr' := EM.addMissing B0.nodes fr with hfr
  have hd' := hd.addMissing hB.nodes
  have hu' : ∀ r ∈ fr'.rows, ∀ r' ∈ fr'.rows, Rec.observed r = Rec.observed r' := by
    intro r h1 r' h2
    obtain ⟨r, h3, rfl⟩ := List.mem_map.1 h1
    obtain ⟨r', h4, rfl⟩ := List.mem_map.1 h2
    rw [observed_missing, observed_missing]
    exact hu r h3 r' h4
  have hgo : Going ch kl B0 v fr' (⟨c, none⟩ : LObj (EM II) (DagModel (Factor II) V S)) := by
    obtain ⟨m', m1, m2, m3, m4, m5⟩ := hr.copy hB
    have hc : c = { EM.new prior (some [v]) with model := m', data := fr', trainable := [v] } := by
      have h1 : EM.init (EM.new prior (some [v])) fr = .ok c := c1
      have h2 : EM.init (EM.new prior (some [v])) fr = .ok { EM.new prior (some [v]) with model := m', data := fr', trainable := [v] } := by
        rw [EM.init]
        show (DagModel.ofDict prior.graph prior.factors true >>= _) = _
        rw [m1, py_ok_bind]
        show Except.ok (EM.mk prior m' (if (EM.new prior (some [v]) : EM II).trainable = [] then ((EM.addMissing prior.graph.nodes fr).cols.filter
            (EM.addMissing prior.graph.nodes fr).hasNa) else (EM.new prior (some [v]) : EM II).trainable) _ (EM.addMissing prior.graph.nodes fr)) = _
        rw [hr.nodes]
        rfl
      rw [h1] at h2
      injection h2
    refine ⟨by rw [hc]; rfl, [], prior, B0, ?_, hr, ?_, ?_, fun C _ b hb h0 => absurd h0 (hv b hb).ne'⟩
    · show [c.prior] = [prior]
      rw [c2.core.isPrior]
    · rw [hc]; exact m2
    · refine ⟨hB, hn, hnn, rfl, rfl, rfl, fun _ _ _ => rfl, fun r' hr' => ?_⟩
      obtain ⟨r, hr0, rfl⟩ := List.mem_map.1 hr'
      obtain ⟨a, a1, a2, a3⟩ := hpos r hr0
      exact ⟨a, a1, a2, fun v s hs => a3 v s (by rw [val_missing] at hs; exact hs)⟩
  have loop : ∀ (n : ℕ) (s : LObj (EM II) (DagModel (Factor II) V S)), EM.ObjOk ch kl prior B0 [v] fr' s → Going ch kl B0 v fr' s →
      ∃ s', (EM.learner ch kl).loopF n s = .ok s' ∧ (v ∈ s'.core.converged → Best B0 v fr' s'.core.model) := by
    intro n
    induction n with
    | zero => intro s _ h; exact ⟨s, rfl, fun hc => by rw [h.1] at hc; cases hc⟩
    | succ n ih =>
      intro s ho h
      obtain ⟨s1, s2, b, h1, h2, h3⟩ := ho.step hch (priorOk_of hr hdom) hd'
      have h4 := Going.step hch hkl hr hdom hd' hu' ho h h1 h2
      rw [Learner.loopF, h1, py_ok_bind, h2, py_ok_bind]
      rcases h4 with ⟨rfl, h4⟩ | ⟨rfl, h4⟩
      · exact ⟨s2, rfl, fun _ => h4⟩
      · exact ih s2 h3 h4
  obtain ⟨s', s1, h⟩ := loop n _ c2 hgo
  refine ⟨s', by rw [Learner.runF, c1, py_ok_bind]; exact s1, fun hc => ?_⟩
  obtain ⟨B, b1, b2, b3⟩ := h hc
  refine ⟨B, b1, b2, fun C hC => ?_⟩
  have := b3 C hC
  rwa [hfr, likelihood_addMissing, likelihood_addMissing] at this

end

/-! ### Example and witnesses -/

/-- A run: the table of `U` at the end, the converged variables, and the likelihood at the end -/
def runFix (vt : VType) (g : DiGraph Char) (rows : List Row) (T : List Char) (fr : Frame Char Char) (n : ℕ) : Py (List (Fl ℚ) × List Char × ℚ) := do
  let m ← netOf vt g rows
  let s ← (EM.learner (I := IQ vt) chEx klEq).runF fr n ⟨EM.new m (some T), none⟩
  let t ← EM.tableOf s.core.model 'U'
  return (t, s.core.converged, likAt (BN.ofModel (IQ vt) s.core.model) 'a' fr.rows)

/-- The likelihood of a network -/
def likOf (vt : VType) (g : DiGraph Char) (rows : List Row) (fr : Frame Char Char) : Py ℚ := do
  let m ← netOf vt g rows
  return likAt (BN.ofModel (IQ vt) m) 'a' fr.rows

/-- Converges in two steps, to the frequencies; the likelihood is (2/3)²(1/3). -/
theorem C99_converges (vt : VType) : runFix vt gUX rowsEq ['U'] (frOf ['a', 'a', 'b']) 5 = .ok ([q (2/3), q (1/3)], ['U'], 4/27) := by
  cases vt <;> decide +kernel

/-- What is evaluated for the example. -/
def eqCheck (vt : VType) : Bool :=
  match netOf vt gUX rowsEq with
  | .ok m =>
    let B : BN Char Char ℚ := BN.ofModel (IQ vt) m
    decide (B.nodes = ['U', 'X'] ∧ B.parents 'U' = [] ∧ B.states 'U' = ['a', 'b'] ∧ B.states 'X' = ['a', 'b'] ∧
      (∀ v ∈ B.nodes, Dict.get? m.domains v = some (some (B.states v))) ∧
      0 < B.joint (fun _ => 'a') ∧ 0 < B.joint (fun _ => 'b') ∧ 0 < B.table 'U' (fun _ => 'a') ∧ 0 < B.table 'U' (fun _ => 'b'))
  | .error _ => false

theorem eqCheck_ok (vt : VType) : eqCheck vt = true := by
  cases vt <;> decide +kernel

/-- The hypotheses of `C99_run_partial` are met by this run, which converges: no other distribution of `U` has a likelihood
above 4/27. -/
theorem C99_example (vt : VType) : ∃ m s', ∃ B : BN Char Char ℚ, netOf vt gUX rowsEq = .ok m ∧
    (EM.learner (I := IQ vt) chEx klEq).runF (frOf ['a', 'a', 'b']) 5 ⟨EM.new m (some ['U']), none⟩ = .ok s' ∧ s'.core.converged = ['U'] ∧
    Represents s'.core.model B ∧ Variant (BN.ofModel (IQ vt) m) 'U' B ∧
    ∀ C, Variant (BN.ofModel (IQ vt) m) 'U' C → likelihood C (frOf ['a', 'a', 'b']).rows ≤ likelihood B (frOf ['a', 'a', 'b']).rows := by
  obtain ⟨m, h1, h2, h3, h4, h5, h6⟩ := netOf_spec (vt := vt) (g := gUX) (rows := rowsEq) (by decide) (by cases vt <;> decide +kernel)
  have hc := eqCheck_ok vt
  rw [eqCheck, h1] at hc
  simp only [decide_eq_true_eq] at hc
  obtain ⟨c1, c2, c3, c4, c5, c6, c7, c8, c9⟩ := hc
  have hxs : ∀ x ∈ ['a', 'a', 'b'], x = 'a' ∨ x = 'b' := by decide
  have hU : 'U' ∈ (BN.ofModel (IQ vt) m : BN Char Char ℚ).nodes := by rw [c1]; decide
  obtain ⟨s', k1, k2⟩ := C99_run_partial chEx_ok (kl := klEq) (by intro p q h; simpa [klEq] using h) h3 h4 h5 h6 c5 (v := 'U')
    (fr := frOf ['a', 'a', 'b']) (by rw [h2]; exact ux_rootData c1 c2 c4 (by decide) hxs) (ux_possible c1 c3 c4 c6 c7 hxs) (by decide) (by
      intro b hb
      have hbU := hb 'U' hU
      rw [c3] at hbU
      have dep := h4.scope 'U' hU
      rw [c2] at dep
      rcases List.mem_cons.1 hbU with h | h
      · rw [dep b (fun _ => 'a') (by intro x hx; rw [List.mem_singleton.1 hx, h])]; exact c8
      · rw [dep b (fun _ => 'b') (by intro x hx; rw [List.mem_singleton.1 hx, List.mem_singleton.1 h])]; exact c9) 5
  have hrun := C99_converges vt
  rw [runFix, h1, py_ok_bind, k1, py_ok_bind] at hrun
  have hconv : s'.core.converged = ['U'] := by
    cases ht : EM.tableOf s'.core.model 'U' with
    | error e => rw [ht] at hrun; cases hrun
    | ok t =>
      rw [ht, py_ok_bind] at hrun
      injection hrun with hrun
      exact (Prod.mk.inj (Prod.mk.inj hrun).2).1
  obtain ⟨B, b1, b2, b3⟩ := k2 (by rw [hconv]; decide)
  exact ⟨m, s', B, h1, k1, hconv, b1, b2, b3⟩

/-- `X` is a noisy copy of `U`; of the states of `U` only `a` has a positive probability. -/
def rowsZero : List Row :=
  [([('U', ['a', 'b'])], [q 1, q 0], 'U'),
   ([('U', ['a', 'b']), ('X', ['a', 'b'])], [q (3/4), q (1/4), q (1/4), q (3/4)], 'X')]

/-- The same with only `b` -/
def rowsOne : List Row :=
  [([('U', ['a', 'b'])], [q 0, q 1], 'U'),
   ([('U', ['a', 'b']), ('X', ['a', 'b'])], [q (3/4), q (1/4), q (1/4), q (3/4)], 'X')]

/-- **C99** is false for a prior with a zero: the run converges at once, with likelihood 1/4, while another table gives 3/4. -/
theorem C99_zero (vt : VType) : runFix vt gUX rowsZero ['U'] (frOf ['b']) 5 = .ok ([q 1, q 0], ['U'], 1/4) ∧
    likOf vt gUX rowsOne (frOf ['b']) = .ok (3/4) := by
  cases vt <;> exact ⟨by decide +kernel, by decide +kernel⟩

/-- `U → X ← W` -/
def gUWX : DiGraph Char := ⟨['U', 'W', 'X'], [('U', 'X'), ('W', 'X')]⟩

/-- `X` is `a` when `U` and `W` are equal; both are uniform. -/
def rowsXor : List Row :=
  [([('U', ['a', 'b'])], [q (1/2), q (1/2)], 'U'), ([('W', ['a', 'b'])], [q (1/2), q (1/2)], 'W'),
   ([('U', ['a', 'b']), ('W', ['a', 'b']), ('X', ['a', 'b'])], [q 1, q 0, q 0, q 1, q 0, q 1, q 1, q 0], 'X')]

/-- The same, both are `a`. -/
def rowsXor1 : List Row :=
  [([('U', ['a', 'b'])], [q 1, q 0], 'U'), ([('W', ['a', 'b'])], [q 1, q 0], 'W'),
   ([('U', ['a', 'b']), ('W', ['a', 'b']), ('X', ['a', 'b'])], [q 1, q 0, q 0, q 1, q 0, q 1, q 1, q 0], 'X')]

/-- **C99** is false for two hidden roots: the run converges at once, with likelihood 1/2, while other tables give 1. -/
theorem C99_two (vt : VType) : runFix vt gUWX rowsXor ['U', 'W'] (frOf ['a']) 5 = .ok ([q (1/2), q (1/2)], ['U', 'W'], 1/2) ∧
    likOf vt gUWX rowsXor1 (frOf ['a']) = .ok 1 := by
  cases vt <;> exact ⟨by decide +kernel, by decide +kernel⟩

/-- **C99** is false when different columns are observed: the run converges to a table with likelihood 9/64, while the prior has
4/27. -/
theorem C99_mixed (vt : VType) : runFix vt gUXY rowsUXY ['U'] frGap 5 = .ok ([q (3/4), q (1/4)], ['U'], 9/64) ∧
    likOf vt gUXY rowsUXY frGap = .ok (4/27) ∧ (9/64 : ℚ) < 4/27 := by
  refine ⟨?_, ?_, by norm_num⟩ <;> cases vt <;> decide +kernel

/-- `X` is `a` when `U` and `W` are equal; `U` is not uniform. -/
def rowsXorP : List Row :=
  [([('U', ['a', 'b'])], [q (3/4), q (1/4)], 'U'), ([('W', ['a', 'b'])], [q (1/2), q (1/2)], 'W'),
   ([('U', ['a', 'b']), ('W', ['a', 'b']), ('X', ['a', 'b'])], [q 1, q 0, q 0, q 1, q 0, q 1, q 1, q 0], 'X')]

/-- Two steps, and one more by a new object: the tables of `U`, and the variables that had converged -/
def runFrozen (vt : VType) : Py (List (Fl ℚ) × List Char × List (Fl ℚ)) := do
  let m ← netOf vt gUWX rowsXorP
  let s ← (EM.learner (I := IQ vt) chEx klEq).runF (frOf ['a']) 2 ⟨EM.new m (some ['U', 'W']), none⟩
  let t ← EM.tableOf s.core.model 'U'
  let s' ← (EM.learner (I := IQ vt) chEx klEq).runF (frOf ['a']) 1 ⟨EM.new s.core.model (some ['U', 'W']), none⟩
  let t' ← EM.tableOf s'.core.model 'U'
  return (t, s.core.converged, t')

/-- **C99** is false of one among several roots: the first step leaves `U` as it is, because `W` is uniform, and `U` counts as
converged from then on; the second step has changed `W`, so that a new object would change `U`. -/
theorem C99_frozen (vt : VType) : runFrozen vt = .ok ([q (3/4), q (1/4)], ['U'], [q (27/28), q (1/28)]) := by
  cases vt <;> decide +kernel

end Verif.Props
