import Verif.Inference.CfRefused
import Verif.Props.CausalEx

/-!
# When counterfactual queries are answered
-/

set_option linter.unusedSectionVars false
set_option linter.unusedSimpArgs false

namespace Verif
namespace Props
open Causal

variable {V S K : Type} [DecidableEq V] [DecidableEq S] [Inhabited S] [Field K] [LinearOrder K] [IsStrictOrderedRing K] {vt : VType}

local notation "II" => (storeOf vt : StoreImpl V S (Fl K))
local notation "LL" => (labelStoreOf vt : LabelStore V S)

/-- No variable of the model has the name of a copy, and different copies have different names. -/
structure CopyNames (B : BN V S K) (sfx : V → Nat → V) : Prop where
  fresh : ∀ v i, sfx v i ∉ B.nodes
  inj : ∀ v w i j, sfx v i = sfx w j → v = w ∧ i = j

/-- A counterfactual query in general: any variables may be intervened or asked for, in any worlds.  The imposed states are states
of their variables, and there is a target. -/
structure CfAsked (B : BN V S K) (dos : List (Obs V S)) (tg : List (V × Nat)) : Prop where
  doNodup : ∀ d ∈ dos, (Dict.keys d).Nodup
  doStates : ∀ d ∈ dos, ∀ v s, Dict.get? d v = some s → s ∈ B.states v
  nonempty : tg ≠ []

/-- What the code can answer: only variables with equations are intervened, each of them has a child that is not intervened in the
same world; the targets are distinct variables with equations in the hypothetical worlds, not intervened there. -/
structure Answerable (B : BN V S K) (dos : List (Obs V S)) (tg : List (V × Nat)) : Prop where
  done : ∀ d ∈ dos, ∀ v ∈ Dict.keys d, v ∈ B.nodes ∧ B.parents v ≠ [] ∧ ∃ c ∈ B.nodes, v ∈ B.parents c ∧ c ∉ Dict.keys d
  asked : ∀ q ∈ tg, q.1 ∈ B.nodes ∧ B.parents q.1 ≠ [] ∧ ∃ d, (q.2 ≠ 0 ∧ dos[q.2 - 1]? = some d) ∧ q.1 ∉ Dict.keys d
  nodup : tg.Nodup

section
variable {B : BN V S K} {sfx : V → Nat → V} {dos : List (Obs V S)} {tg : List (V × Nat)}

theorem Answerable.cfOk (h : Answerable B dos tg) (ha : CfAsked B dos tg) (hn : CopyNames B sfx) : CfOk B sfx dos tg where
  doNodup := ha.doNodup
  doInner := fun d hd v hv => BN.mem_inner.2 ⟨(h.done d hd v hv).1, (h.done d hd v hv).2.1⟩
  doStates := ha.doStates
  used := fun d hd v hv => (h.done d hd v hv).2.2
  fresh := fun v _ i _ _ => hn.fresh v i
  inj := fun v _ w _ i j _ _ _ _ => hn.inj v w i j
  nonempty := ha.nonempty
  nodup := h.nodup
  target := fun q hq => by
    obtain ⟨h1, h2, d, ⟨h3, h4⟩, h5⟩ := h.asked q hq
    have := (List.getElem?_eq_some_iff.1 h4).1
    refine ⟨BN.mem_inner.2 ⟨h1, h2⟩, by omega, by omega, fun d' hd' => ?_⟩
    rw [h4] at hd'
    cases hd'; exact h5

theorem mem_keys_foldl_set {κ ν : Type} [DecidableEq κ] {l d : List (κ × ν)} {k : κ} (h : k ∈ Dict.keys d ∨ k ∈ Dict.keys l) :
    k ∈ Dict.keys (l.foldl (fun d q => Dict.set d q.1 q.2) d) := by
  induction l generalizing d with
  | nil => simpa using h
  | cons q l ih =>
    rw [List.foldl_cons]
    refine ih ?_
    have hk : ∀ k, k ∈ Dict.keys d ∨ k = q.1 → k ∈ Dict.keys (Dict.set d q.1 q.2) := by
      intro k hk
      by_cases hq : q.1 ∈ Dict.keys d
      · rw [Dict.keys_set_of_mem hq]
        rcases hk with hk | rfl
        · exact hk
        · exact hq
      · rw [Dict.set_new hq, Dict.keys_append, List.mem_append]
        rcases hk with hk | rfl
        · exact .inl hk
        · exact .inr (by simp)
    rcases h with h | h
    · exact .inl (hk k (.inl h))
    · rw [Dict.keys_cons, List.mem_cons] at h
      rcases h with h | h
      · exact .inl (hk k (.inr h))
      · exact .inr h

theorem mem_cfDo {p : Obs V S × Nat} (hp : p ∈ dos.zipIdx) {v : V} (hv : v ∈ Dict.keys p.1) : sfx v (p.2 + 1) ∈ Dict.keys (cfDo sfx dos) := by
  refine mem_keys_foldl_set (.inr ?_)
  obtain ⟨s, hs⟩ := Dict.mem_keys.1 hv
  exact Dict.mem_keys_of_mem (p := (sfx v (p.2 + 1), s)) (List.mem_flatMap.2 ⟨p, hp, List.mem_map.2 ⟨(v, s), hs, rfl⟩⟩)

/-- A query on names that are not in the model, or with a target in the evidence, is not answered. -/
theorem query_refused {F : Type} [VEFactor F II] {ch : Choices V} {o : VEObj F II} {T : List V} {e : Obs V S}
    (h : ¬ T.Nodup ∨ (∃ t ∈ T, t ∈ Dict.keys e) ∨ ∃ v ∈ T ++ Dict.keys e, v ∉ o.model.graph.nodes) :
    ∃ err, (o.query ch T (some e)).2 = .error err := by
  obtain ⟨h1, h2, _, h4⟩ := C41_refused_partial ch o T [] (some e)
  by_cases hn : T.Nodup
  · by_cases hd : ∃ t ∈ T, t ∈ Dict.keys e
    · rw [h2 hd]; exact ⟨_, rfl⟩
    · have hd' : ∀ t ∈ T, t ∉ Dict.keys e := fun t ht hc => hd ⟨t, ht, hc⟩
      rcases h with h | h | h
      · exact absurd hn h
      · exact absurd h hd
      · exact ⟨_, (h4 hn hd' h).1⟩
  · rw [h1 hn]; exact ⟨_, rfl⟩

theorem zip_fst_snd {X Y : Type} (l : List (X × Y)) : (l.map Prod.fst).zip (l.map Prod.snd) = l := by
  rw [← List.unzip_fst, ← List.unzip_snd]; exact List.zip_unzip _

/-- **C90** every other query fails: for every structural causal model and every query that is not `Answerable`. -/
theorem C90_refused {ch : Choices V} (hch : ch.Ok) {m : SCM II LL} (h : CausalOk m B) (hn : CopyNames B sfx) (ha : CfAsked B dos tg)
    (hno : ¬ Answerable B dos tg) (e : Option (Obs V S)) :
    ∃ m', new m = .ok m' ∧ ∃ err, counterfactualQuery sfx ch m' (tg.map Prod.fst) dos e (some (tg.map Prod.snd)) = .error err := by
  obtain ⟨m', n1, n2, n3, n4, n5, n6⟩ := new_ok h
  refine ⟨m', n1, ?_⟩
  have hT : cfTarget sfx (tg.map Prod.fst) (some (tg.map Prod.snd)) = tg.map fun q => sfx q.1 q.2 := by
    cases tg with
    | nil => exact absurd rfl ha.nonempty
    | cons q tg => exact congrArg (List.map fun q : V × Nat => sfx q.1 q.2) (zip_fst_snd (q :: tg))
  rw [counterfactualQuery]
  simp only [hT]
  split
  · exact ⟨_, rfl⟩
  rename_i hk
  rw [not_not, n2.nodes] at hk
  cases hm : cfModel sfx ch.setOrd m' dos with
  | error err => exact ⟨err, rfl⟩
  | ok im =>
    rw [py_ok_bind]
    -- the nodes of the fused model that are copies
    have hcopy : ∀ v i, sfx v i ∈ im.base.graph.nodes → v ∈ B.inner ∧ ∃ p ∈ dos.zipIdx, i = p.2 + 1 := by
      intro v i hv
      rcases cfModel_nodes n2 n5 hm hv with hv | ⟨p, hp, w, hw, ew, _⟩
      · exact absurd hv (hn.fresh v i)
      · obtain ⟨rfl, rfl⟩ := hn.inj _ _ _ _ ew
        exact ⟨hw, p, hp, rfl⟩
    have hdoKey : ∀ p ∈ dos.zipIdx, ∀ v ∈ Dict.keys p.1, sfx v (p.2 + 1) ∈ Dict.keys (Dict.merge (e.getD []) (cfDo sfx dos)) := by
      intro p hp v hv
      exact SCM.mem_keys_merge.2 (.inr (mem_cfDo hp hv))
    refine query_refused ?_
    by_contra hcon
    simp only [not_or, not_exists, not_and, not_not] at hcon
    obtain ⟨c1, c2, c3⟩ := hcon
    have hin : ∀ d ∈ dos, ∀ v ∈ Dict.keys d, v ∈ B.inner := by
      intro d hd v hv
      obtain ⟨i, hi⟩ := List.mem_iff_getElem?.1 hd
      have hp : (d, i) ∈ dos.zipIdx := List.mem_zipIdx_iff_getElem?.2 hi
      exact (hcopy v (i + 1) (c3 _ (List.mem_append_right _ (hdoKey (d, i) hp v hv)))).1
    refine hno ⟨fun d hd v hv => ?_, fun q hq => ?_, ?_⟩
    · obtain ⟨i, hi⟩ := List.mem_iff_getElem?.1 hd
      have hp : (d, i) ∈ dos.zipIdx := List.mem_zipIdx_iff_getElem?.2 hi
      have hvi := hin d hd v hv
      refine ⟨(BN.mem_inner.1 hvi).1, (BN.mem_inner.1 hvi).2, ?_⟩
      by_contra hc
      have ht : B.TwinOk m'.exogenous m'.endogenous sfx dos := by
        rw [n5, n6]
        exact ⟨h.valid, h.norm, B.roots_inner, fun _ hx => (BN.mem_roots.1 hx).2, h.equations, hin,
          fun d hd v s hs _ => ha.doStates d hd v s hs, fun v _ i _ _ => hn.fresh v i, fun v _ w _ i j _ _ _ _ => hn.inj v w i j⟩
      obtain ⟨err, he⟩ := cfModel_childless hch.setOrd n2 n5 ht hp hvi hv hc
      rw [hm] at he; cases he
    · have hqT : sfx q.1 q.2 ∈ tg.map fun q => sfx q.1 q.2 := List.mem_map.2 ⟨q, hq, rfl⟩
      obtain ⟨hqi, p, hp, e2⟩ := hcopy q.1 q.2 (c3 _ (List.mem_append_left _ hqT))
      refine ⟨(BN.mem_inner.1 hqi).1, (BN.mem_inner.1 hqi).2, p.1, ⟨by omega, ?_⟩, fun hc => ?_⟩
      · rw [e2]; exact (mem_zipIdx hp).1
      · refine c2 _ hqT ?_
        rw [e2]; exact hdoKey p hp _ hc
    · exact List.Nodup.of_map _ c1

/-- **C90** exactly the `Answerable` queries are answered, when the evidence has non-zero probability. -/
theorem C90_iff {ch : Choices V} (hch : ch.Ok) {m : SCM II LL} (h : CausalOk m B) (hn : CopyNames B sfx) (ha : CfAsked B dos tg)
    {e : Option (Obs V S)} (hev : EvOk B (e.getD [])) (hp : B.marg (Dict.keys (e.getD [])) (asg (e.getD [])) ≠ 0) :
    ∃ m', new m = .ok m' ∧
      ((∃ r, counterfactualQuery sfx ch m' (tg.map Prod.fst) dos e (some (tg.map Prod.snd)) = .ok r) ↔ Answerable B dos tg) := by
  have hE := BN.eqs_inner h.valid h.norm h.equations
  obtain ⟨m', n1, _⟩ := new_ok h
  refine ⟨m', n1, fun ⟨r, hr⟩ => ?_, fun hh => ?_⟩
  · by_contra hno
    obtain ⟨m'', k1, err, he⟩ := C90_refused hch h hn ha hno e
    rw [n1] at k1; cases k1
    rw [hr] at he; cases he
  · obtain ⟨m'', r, k1, hr⟩ := C44_answered_partial hch h (hh.cfOk ha hn) hev (by rw [BN.cfProb_factual hE hev]; exact hp)
    rw [n1] at k1; cases k1
    exact ⟨r, hr⟩

/-! ### Probabilities of causation -/

/-- A cause and an effect for which the code finds the probabilities of causation. -/
structure CanCause (B : BN V S K) (c e : V) : Prop where
  cause : c ∈ B.nodes ∧ B.parents c ≠ []
  effect : e ∈ B.nodes ∧ B.parents e ≠ []
  ne : c ≠ e
  child : ∃ x ∈ B.nodes, c ∈ B.parents x

theorem CanCause.of_answerable {c e : V} {d : Obs V S} {dos : List (Obs V S)} {tg : List (V × Nat)} (hk : Dict.keys d = [c])
    (h : Answerable B (d :: dos) ((e, 1) :: tg)) : CanCause B c e := by
  obtain ⟨h1, h2, x, hx, h3, _⟩ := h.done d List.mem_cons_self c (by rw [hk]; simp)
  obtain ⟨h4, h5, d', ⟨_, h6⟩, h7⟩ := h.asked (e, 1) List.mem_cons_self
  have : d' = d := by simpa using h6.symm
  subst this
  rw [hk] at h7
  exact ⟨⟨h1, h2⟩, ⟨h4, h5⟩, fun hc => h7 (by simp [hc]), x, hx, h3⟩

theorem CanCause.ok (hn : CopyNames B sfx) {c e : V} {tc fc te fe : S} (h : CanCause B c e) (h1 : tc ∈ B.states c) (h2 : fc ∈ B.states c)
    (h3 : te ∈ B.states e) (h4 : fe ∈ B.states e) : CausationOk B sfx c e tc fc te fe :=
  ⟨BN.mem_inner.2 h.cause, BN.mem_inner.2 h.effect, h.ne, h.child, h1, h2, h3, h4, fun v _ i _ _ => hn.fresh v i,
    fun v _ w _ i j _ _ _ _ => hn.inj v w i j⟩

theorem asked_worlds {c : V} {l : List S} (hl : ∀ s ∈ l, s ∈ B.states c) (htg : tg ≠ []) : CfAsked B (l.map fun s => [(c, s)]) tg := by
  refine ⟨fun d hd => ?_, fun d hd v s hs => ?_, htg⟩
  · obtain ⟨s, _, rfl⟩ := List.mem_map.1 hd
    simp
  · obtain ⟨t, ht, rfl⟩ := List.mem_map.1 hd
    have := Dict.mem_of_get? hs
    simp only [List.mem_singleton, Prod.mk.injEq] at this
    rw [this.1, this.2]; exact hl t ht

/-- **C90** the probability of necessity and sufficiency is found exactly for two different variables with equations, of which the
cause has a child. -/
theorem C90_causation_iff {ch : Choices V} (hch : ch.Ok) {m : SCM II LL} (h : CausalOk m B) (hn : CopyNames B sfx) {c e : V} {tc fc te fe : S}
    (h1 : tc ∈ B.states c) (h2 : fc ∈ B.states c) (h3 : te ∈ B.states e) (h4 : fe ∈ B.states e) :
    ∃ m', new m = .ok m' ∧ ((∃ x, pns sfx ch m' c e tc fc te fe = .ok x) ↔ CanCause B c e) ∧
      (B.marg [c, e] (asg [(c, tc), (e, te)]) ≠ 0 → ((∃ x, pn sfx ch m' c e tc fc te fe = .ok x) ↔ CanCause B c e)) ∧
      (B.marg [c, e] (asg [(c, fc), (e, fe)]) ≠ 0 → ((∃ x, ps sfx ch m' c e tc fc te fe = .ok x) ↔ CanCause B c e)) := by
  obtain ⟨m', n1, _⟩ := new_ok h
  have one : ∀ (s : S) (ev : Option (Obs V S)) (obs : Obs V S), s ∈ B.states c →
      (∃ x, (do
        let r ← counterfactualQuery sfx ch m' [e] [[(c, s)]] ev none
        r.getValue obs) = .ok x) → CanCause B c e := by
    rintro s ev obs hs ⟨x, hx⟩
    by_contra hno
    obtain ⟨m'', k1, err, he⟩ := C90_refused hch h hn (dos := [[(c, s)]]) (tg := [(e, 1)])
      (asked_worlds (l := [s]) (by simpa using hs) (by simp)) (fun ha => hno (CanCause.of_answerable rfl ha)) ev
    rw [n1] at k1; cases k1
    have he' : counterfactualQuery sfx ch m' [e] [[(c, s)]] ev none = .error err := he
    rw [he'] at hx; cases hx
  refine ⟨m', n1, ⟨fun ⟨x, hx⟩ => ?_, fun hh => ?_⟩, fun hp => ⟨one fc _ _ h2, fun hh => ?_⟩, fun hp => ⟨one tc _ _ h1, fun hh => ?_⟩⟩
  · by_contra hno
    obtain ⟨m'', k1, err, he⟩ := C90_refused hch h hn (dos := [[(c, fc)], [(c, tc)]]) (tg := [(e, 1), (e, 2)])
      (asked_worlds (l := [fc, tc]) (by simp [h1, h2]) (by simp)) (fun ha => hno (CanCause.of_answerable rfl ha)) none
    rw [n1] at k1; cases k1
    rw [pns] at hx
    have he' : counterfactualQuery sfx ch m' [e, e] [[(c, fc)], [(c, tc)]] none (some [1, 2]) = .error err := he
    rw [he'] at hx; cases hx
  · obtain ⟨m'', k1, hx⟩ := C46_necessity_sufficiency_partial hch h (hh.ok hn h1 h2 h3 h4)
    rw [n1] at k1; cases k1
    exact ⟨_, hx⟩
  · obtain ⟨m'', k1, hx⟩ := C46_necessity_partial hch h (hh.ok hn h1 h2 h3 h4) hp
    rw [n1] at k1; cases k1
    exact ⟨_, hx⟩
  · obtain ⟨m'', k1, hx⟩ := C46_sufficiency_partial hch h (hh.ok hn h1 h2 h3 h4) hp
    rw [n1] at k1; cases k1
    exact ⟨_, hx⟩

/-! ### Examples -/

theorem pySfx_new {B : BN PyStr S K} (h : ∀ v ∈ B.nodes, '_' ∉ v) : CopyNames B pySfx :=
  ⟨fun v i hc => h _ hc (by simp [pySfx]), fun _ _ _ _ e => pySfx_inj e⟩

/-- The hypotheses hold for the example model, and both kinds of queries exist there: one with two hypothetical worlds is answered,
one that intervenes on the childless `Z` is not. -/
theorem C90_example (vt : VType) : ∃ (m : SCM (IS vt PyStr) (LS vt PyStr)) (b : DagModel (Factor (IS vt PyStr)) PyStr Char),
    exScm vt none false = .ok m ∧ CausalOk m (exB vt b) ∧ CopyNames (exB vt b) pySfx ∧
    CfAsked (exB vt b) [[(sY, '1')], [(sX, '0')]] [(sZ, 1), (sY, 2)] ∧ Answerable (exB vt b) [[(sY, '1')], [(sX, '0')]] [(sZ, 1), (sY, 2)] ∧
    CfAsked (exB vt b) [[(sZ, '1')]] [(sY, 1)] ∧ ¬ Answerable (exB vt b) [[(sZ, '1')]] [(sY, 1)] ∧
    CanCause (exB vt b) sX sZ ∧ ¬ CanCause (exB vt b) sZ sX := by
  obtain ⟨m, b, h1, hb, h3, h4, _⟩ := ex_causal vt
  have hc : (match exBnet vt with
      | .ok b => decide ((∀ v ∈ (exB vt b).nodes, '_' ∉ v) ∧ (∀ c ∈ (exB vt b).nodes, sZ ∉ (exB vt b).parents c) ∧
        (exB vt b).nodes = [sU, sW, sX, sY, sZ] ∧ (exB vt b).parents sX ≠ [] ∧ (exB vt b).parents sY ≠ [] ∧ (exB vt b).parents sZ ≠ [] ∧
        sX ∈ (exB vt b).parents sY ∧ sY ∈ (exB vt b).parents sZ ∧
        (exB vt b).states sX = ['0', '1'] ∧ (exB vt b).states sY = ['0', '1'] ∧ (exB vt b).states sZ = ['0', '1'])
      | .error _ => false) = true := by cases vt <;> decide +kernel
  rw [hb] at hc
  simp only [decide_eq_true_eq] at hc
  obtain ⟨c1, c2, c3, pX, pY, pZ, e1, e2, s1, s2, s3⟩ := hc
  have mX : sX ∈ (exB vt b).nodes := by rw [c3]; decide
  have mY : sY ∈ (exB vt b).nodes := by rw [c3]; decide
  have mZ : sZ ∈ (exB vt b).nodes := by rw [c3]; decide
  refine ⟨m, b, h1, h3, pySfx_new c1, ⟨by decide, fun d hd v s hs => ?_, by decide⟩, ⟨fun d hd v hv => ?_, fun q hq => ?_, by decide⟩,
    ⟨by decide, fun d hd v s hs => ?_, by decide⟩, fun ha => ?_, ⟨⟨mX, pX⟩, ⟨mZ, pZ⟩, by decide, sY, mY, e1⟩, fun hh => ?_⟩
  · simp only [List.mem_cons, List.not_mem_nil, or_false] at hd
    rcases hd with rfl | rfl
    · have := Dict.mem_of_get? hs
      simp only [List.mem_singleton, Prod.mk.injEq] at this
      rw [this.1, this.2, s2]; decide
    · have := Dict.mem_of_get? hs
      simp only [List.mem_singleton, Prod.mk.injEq] at this
      rw [this.1, this.2, s1]; decide
  · simp only [List.mem_cons, List.not_mem_nil, or_false] at hd
    rcases hd with rfl | rfl
    · have : v = sY := by simpa using hv
      subst this
      exact ⟨mY, pY, sZ, mZ, e2, by decide⟩
    · have : v = sX := by simpa using hv
      subst this
      exact ⟨mX, pX, sY, mY, e1, by decide⟩
  · simp only [List.mem_cons, List.not_mem_nil, or_false] at hq
    rcases hq with rfl | rfl
    · exact ⟨mZ, pZ, _, ⟨by decide, rfl⟩, by decide⟩
    · exact ⟨mY, pY, _, ⟨by decide, rfl⟩, by decide⟩
  · simp only [List.mem_cons, List.not_mem_nil, or_false] at hd
    subst hd
    have := Dict.mem_of_get? hs
    simp only [List.mem_singleton, Prod.mk.injEq] at this
    rw [this.1, this.2, s3]; decide
  · obtain ⟨_, _, c, hc, hp, _⟩ := ha.done _ List.mem_cons_self sZ (by decide)
    exact c2 c hc hp
  · obtain ⟨c, hc, hp⟩ := hh.child
    exact c2 c hc hp

end
end Props
end Verif
