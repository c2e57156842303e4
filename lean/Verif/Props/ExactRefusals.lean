import Verif.Props.Inference

/-!
# Exactly which queries are refused, and what a refusal leaves behind (C41)
-/

set_option linter.unusedSectionVars false
set_option linter.unusedSimpArgs false

namespace Verif.Props
open Verif

variable {V S K : Type} [DecidableEq V] [DecidableEq S] [Nonempty S] [Field K] [LinearOrder K] {vt : VType} {F : Type}
  [VEFactor F (storeOf vt : StoreImpl V S (Fl K))]

/-- The names of a query are in order: no target twice, none of them observed, all of them in the network. -/
structure WellFormed (nodes T : List V) (ev : Obs V S) : Prop where
  nodup : T.Nodup
  disjoint : ∀ t ∈ T, t ∉ Dict.keys ev
  known : ∀ v ∈ T ++ Dict.keys ev, v ∈ nodes

/-- The evidence is a dictionary, and the states of the variables that exist are states of theirs. -/
structure EvStates (B : BN V S K) (ev : Obs V S) : Prop where
  nodup : (Dict.keys ev).Nodup
  states : ∀ v ∈ B.nodes, ∀ s, Dict.get? ev v = some s → s ∈ B.states v

theorem EvStates.evOk {B : BN V S K} {ev : Obs V S} (h : EvStates B ev) (hk : ∀ v ∈ Dict.keys ev, v ∈ B.nodes) : EvOk B ev :=
  ⟨h.nodup, hk, fun v s hs => h.states v (hk v (Dict.mem_keys_of_mem (Dict.mem_of_get? hs))) s hs⟩

/-- **C41** exactly: a query for at least one variable is answered if and only if its names are in order, in every store and
after any history. -/
theorem C41_exact {ch : Choices V} (hch : ch.Ok) (o : VEObj F (storeOf vt : StoreImpl V S (Fl K))) {B : BN V S K}
    (hr : Represents o.model B) (hB : B.Valid) (hn : B.Normalised) {T : List V} (hT : T ≠ []) {e : Option (Obs V S)}
    (he : EvStates B (e.getD [])) :
    (∃ r, (o.query ch T e).2 = .ok r) ↔ WellFormed B.nodes T (e.getD []) := by
  have hI := storeOf_lawful (V := V) (S := S) (α := Fl K) vt
  obtain ⟨r1, r2, _, r4⟩ := C41_refused_partial ch o T [] e
  constructor
  · rintro ⟨r, h⟩
    have a1 : T.Nodup := by
      by_contra hc
      rw [r1 hc] at h
      cases h
    have a2 : ∀ t ∈ T, t ∉ Dict.keys (e.getD []) := fun t ht hk => by
      rw [r2 ⟨t, ht, hk⟩] at h
      cases h
    refine ⟨a1, a2, fun v hv => ?_⟩
    by_contra hc
    rw [(r4 a1 a2 ⟨v, hv, by rw [hr.nodes]; exact hc⟩).1] at h
    cases h
  · rintro ⟨h1, h2, h3⟩
    have hok := he.evOk fun v hv => h3 v (List.mem_append_right _ hv)
    have hTB : ∀ t ∈ T, t ∈ B.nodes := fun t ht => h3 t (List.mem_append_left _ ht)
    obtain ⟨m', r, hm, _, hrun, _⟩ := ve_core hI hch hr hB hn hTB h1 hT hok h2
    refine ⟨r, ?_⟩
    rw [VEObj.query_ok o rfl h1 h2 (fun v hv => by rw [hr.nodes]; exact h3 v hv) hm]
    exact hrun

/-- **C41** for conditional queries about evidence of non-zero probability, without repeated targets (`C41_repeated_conditional`
is about those): answered if and only if targets and conditioning variables are disjoint, not observed, and in the network. -/
theorem C41_exact_cond {ch : Choices V} (hch : ch.Ok) (o : VEObj F (storeOf vt : StoreImpl V S (Fl K))) {B : BN V S K}
    (hr : Represents o.model B) (hB : B.Valid) (hn : B.Normalised) {T C : List V} (hTn : T.Nodup) (h0 : T ++ C ≠ [])
    {e : Option (Obs V S)} (he : EvStates B (e.getD [])) (hp : B.marg (Dict.keys (e.getD [])) (asg (e.getD [])) ≠ 0) :
    (∃ r, (o.queryCond ch T C e).2 = .ok r) ↔ (∀ t ∈ T, t ∉ C) ∧ (∀ t ∈ T ++ C, t ∉ Dict.keys (e.getD [])) ∧
      ∀ v ∈ (T ++ C) ++ Dict.keys (e.getD []), v ∈ B.nodes := by
  constructor
  · rintro ⟨r, h⟩
    have a1 : ∀ t ∈ T, t ∉ C := fun t ht hc => by
      rw [(C41_refused_partial ch o T C e).2.2.1 ⟨t, ht, hc⟩] at h
      cases h
    obtain ⟨w1, w2⟩ := hch.setOrd (T ++ C)
    rw [VEObj.queryCond, if_neg (not_not.2 a1)] at h
    have hc : ∃ o', o.compile (ch.setOrd (T ++ C)) (some (e.getD [])) = (o', .ok ()) := by
      rcases hh : o.compile (ch.setOrd (T ++ C)) (some (e.getD [])) with ⟨o', x | x⟩
      · rw [hh] at h; cases h
      · exact ⟨o', rfl⟩
    obtain ⟨o', hc⟩ := hc
    rw [VEObj.compile, if_neg (not_not.2 w1)] at hc
    simp only at hc
    split at hc
    · injection hc with _ hc; cases hc
    · rename_i d1
      split at hc
      · injection hc with _ hc; cases hc
      · rename_i d2
        refine ⟨a1, fun t ht => not_not.1 d1 t ((w2 t).2 ht), fun v hv => ?_⟩
        rw [← hr.nodes]
        refine not_not.1 d2 v ?_
        rcases List.mem_append.1 hv with hv | hv
        · exact List.mem_append_left _ ((w2 v).2 hv)
        · exact List.mem_append_right _ hv
  · rintro ⟨h1, h2, h3⟩
    obtain ⟨r, hr, _⟩ := cond_core hch o hr hB hn hTn h1 h0 (fun t ht => h3 t (List.mem_append_left _ ht))
      (he.evOk fun v hv => h3 v (List.mem_append_right _ hv)) h2 rfl hp
    exact ⟨r, hr⟩

/-- **C41** what an object remembers of a query for unknown names: its target and evidence, and nothing else; `run` then
uses them with the network that was pruned for the last query that was accepted, if there was one. -/
theorem C41_recorded (ch : Choices V) (o : VEObj F (storeOf vt : StoreImpl V S (Fl K))) {T : List V} {e : Option (Obs V S)}
    (hn : T.Nodup) (hd : ∀ t ∈ T, t ∉ Dict.keys (e.getD [])) (hu : ∃ v ∈ T ++ Dict.keys (e.getD []), v ∉ o.model.graph.nodes) :
    (o.query ch T e).1 = { o with target := some T, evidence := e.getD [] } ∧
    (o.compiled = false → (o.query ch T e).1.run ch = .error .valueError) ∧
    (∀ m, o.compiled = true → o.infModel = some m → (o.query ch T e).1.run ch = veRun ch m T (e.getD [])) := by
  obtain ⟨v, h1, h2⟩ := hu
  have : ¬ ∀ v ∈ T ++ Dict.keys (e.getD []), v ∈ o.model.graph.nodes := fun hc => h2 (hc v h1)
  have hc : o.compile T (some (e.getD [])) = ({ o with target := some T, evidence := e.getD [] }, .error .nodeNotFound) := by
    rw [VEObj.compile, if_neg (not_not.2 hn)]
    simp only
    rw [if_neg (not_not.2 hd), if_pos this]
  have hq : (o.query ch T e).1 = { o with target := some T, evidence := e.getD [] } := by rw [VEObj.query, hc]
  refine ⟨hq, fun h => ?_, fun m h hm => ?_⟩
  · rw [hq, VEObj.run, h]; rfl
  · rw [hq, VEObj.run, h, hm]; rfl

theorem compile_same {o o' : VEObj F (storeOf vt : StoreImpl V S (Fl K))} (h : o.model = o'.model) (T : List V) (ev : Obs V S) :
    (o.compile T (some ev)).2 = (o'.compile T (some ev)).2 ∧
    ((o.compile T (some ev)).2 = .ok () → (o.compile T (some ev)).1 = (o'.compile T (some ev)).1) := by
  obtain ⟨m, t, e, i, c⟩ := o
  obtain ⟨m', t', e', i', c'⟩ := o'
  simp only at h
  subst h
  simp only [VEObj.compile]
  split
  · exact ⟨rfl, fun h => by cases h⟩
  · split
    · exact ⟨rfl, fun h => by cases h⟩
    · split
      · exact ⟨rfl, fun h => by cases h⟩
      · cases (minimalize m T ev : Py (DagModel (Factor (storeOf vt : StoreImpl V S (Fl K))) V S)) with
        | error x => exact ⟨rfl, fun h => by cases h⟩
        | ok x => exact ⟨rfl, fun _ => rfl⟩

/-- **C41** the answer to a query does not depend on what was asked, or refused, before: it is that of a new object. -/
theorem C41_history (ch : Choices V) (o : VEObj F (storeOf vt : StoreImpl V S (Fl K))) (T C : List V) (e : Option (Obs V S)) :
    (o.query ch T e).2 = ((VEObj.new o.model : VEObj F (storeOf vt : StoreImpl V S (Fl K))).query ch T e).2 ∧
    (o.queryCond ch T C e).2 = ((VEObj.new o.model : VEObj F (storeOf vt : StoreImpl V S (Fl K))).queryCond ch T C e).2 := by
  have key := fun T ev => compile_same (o := o) (o' := (VEObj.new o.model : VEObj F (storeOf vt : StoreImpl V S (Fl K)))) rfl T ev
  constructor
  · obtain ⟨k1, k2⟩ := key T (e.getD [])
    rw [VEObj.query, VEObj.query]
    rcases h1 : o.compile T (some (e.getD [])) with ⟨a, x | x⟩ <;>
      rcases h2 : (VEObj.new o.model : VEObj F (storeOf vt : StoreImpl V S (Fl K))).compile T (some (e.getD [])) with ⟨b, y | y⟩ <;>
      simp only [h1, h2] at k1 k2 ⊢
    · injection k1 with k1; rw [k1]
    · cases k1
    · cases k1
    · rw [k2 trivial]
  · obtain ⟨k1, k2⟩ := key (ch.setOrd (T ++ C)) (e.getD [])
    rw [VEObj.queryCond, VEObj.queryCond]
    split
    · rfl
    · rcases h1 : o.compile (ch.setOrd (T ++ C)) (some (e.getD [])) with ⟨a, x | x⟩ <;>
        rcases h2 : (VEObj.new o.model : VEObj F (storeOf vt : StoreImpl V S (Fl K))).compile (ch.setOrd (T ++ C)) (some (e.getD [])) with ⟨b, y | y⟩ <;>
        simp only [h1, h2] at k1 k2 ⊢
      · injection k1 with k1; rw [k1]
      · cases k1
      · cases k1
      · rw [k2 trivial]

/-- On the example network: a good query is answered, each kind of bad one is not, and neither is a later `run`. -/
theorem C41_exact_example (vt : VType) : (do
    let m ← netOf vt gEx rowsEx
    let o : VEObj _ (IQ vt) := VEObj.new m
    let p := o.query chEx ['B'] (some [('X', 'x')])
    return ((o.query chEx ['B', 'C'] (some [('A', 'b')])).2.toOption.isSome, (o.query chEx ['B', 'B'] none).2.toOption.isSome,
      (o.query chEx ['B'] (some [('B', 'b')])).2.toOption.isSome, p.2.toOption.isSome, (p.1.run chEx).toOption.isSome,
      (p.1.query chEx ['B', 'C'] (some [('A', 'b')])).2.toOption.isSome)) =
    (.ok (true, false, false, false, false, true) : Py _) := by cases vt <;> decide +kernel

end Verif.Props
