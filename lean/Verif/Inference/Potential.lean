import Verif.Inference.CfLemmas
import Verif.Net.Bounds

/-!
# Potential outcomes: helper lemmas

`B.outcome u d v` is the state of `v` in the world in which `d` is imposed and the exogenous variables have the states `u`.
Counterfactual probabilities are masses of events that are stated with it.
-/

set_option linter.unusedSectionVars false
set_option linter.unusedSimpArgs false

namespace Verif

variable {V S K : Type} [DecidableEq V] [DecidableEq S] [Inhabited S] [Field K] [LinearOrder K] [IsStrictOrderedRing K]

namespace BN

variable {B : BN V S K}

open Classical in
/-- The solution of a world, `x_d(u)`. -/
noncomputable def outcome (B : BN V S K) (u : V → S) (d : Obs V S) : V → S :=
  if h : ∃ b, (∀ x ∈ B.roots, b x = u x) ∧ B.Solves B.inner d b then h.choose else fun _ => default

theorem outcome_spec (h : B.Eqs B.inner) {d : Obs V S} (hd : B.DoOk d) {u : V → S} (hu : ∀ x ∈ B.roots, u x ∈ B.states x) :
    (∀ x ∈ B.roots, B.outcome u d x = u x) ∧ B.Solves B.inner d (B.outcome u d) := by
  have he := exists_solves h hd hu
  rw [outcome, dif_pos he]
  exact he.choose_spec

theorem holds_outcome (h : B.Eqs B.inner) {d c : Obs V S} (hd : B.DoOk d) (hc : ∀ v ∈ Dict.keys c, v ∈ B.nodes) {u : V → S}
    (hu : ∀ x ∈ B.roots, u x ∈ B.states x) :
    B.Holds B.roots B.inner u (d, c) ↔ Agrees c (B.outcome u d) :=
  holds_sol h hd hc hu (outcome_spec h hd hu).2 (outcome_spec h hd hu).1

theorem outcome_states (h : B.Eqs B.inner) {d : Obs V S} (hd : B.DoOk d) {u : V → S} (hu : ∀ x ∈ B.roots, u x ∈ B.states x) {v : V}
    (hv : v ∈ B.nodes) : B.outcome u d v ∈ B.states v := by
  obtain ⟨h1, h2⟩ := outcome_spec h hd hu
  by_cases hr : B.parents v = []
  · rw [h1 v (mem_roots.2 ⟨hv, hr⟩)]; exact hu v (mem_roots.2 ⟨hv, hr⟩)
  · exact (h2 v (mem_inner.2 ⟨hv, hr⟩)).1

/-- Composition: imposing moreover what is the case anyway changes nothing. -/
theorem outcome_compose (h : B.Eqs B.inner) {d d' : Obs V S} (hd : B.DoOk d) (hd' : B.DoOk d') {u : V → S}
    (hu : ∀ x ∈ B.roots, u x ∈ B.states x) (hk : ∀ v s, Dict.get? d v = some s → Dict.get? d' v = some s)
    (hs : ∀ v ∈ B.inner, ∀ s, Dict.get? d' v = some s → B.outcome u d v = s) : ∀ v ∈ B.nodes, B.outcome u d' v = B.outcome u d v := by
  obtain ⟨h1, h2⟩ := outcome_spec h hd hu
  obtain ⟨h3, h4⟩ := outcome_spec h hd' hu
  refine Solves.unique h hd' hu h4 (fun v hv => ?_) h3 h1
  obtain ⟨k1, k2, k3⟩ := h2 v hv
  refine ⟨k1, hs v hv, fun hn => k3 ?_⟩
  cases hg : Dict.get? d v with
  | none => rfl
  | some s => rw [hk v s hg] at hn; cases hn

/-- Summing over the values of a function. -/
theorem pr_sum_value (hB : B.Valid) {l : List S} (hl : l.Nodup) (E : (V → S) → Prop) (X : (V → S) → S)
    (hX : ∀ u, (∀ x ∈ B.roots, u x ∈ B.states x) → X u ∈ l) : (l.map fun s => B.pr fun u => E u ∧ X u = s).sum = B.pr E := by
  classical
  have := pr_sum (B := B) (l.map fun s => fun u => E u ∧ X u = s)
  rw [List.map_map] at this
  refine this.trans ?_
  rw [pr]
  refine sumOver_congr (hB.nodes.filter _) fun u _ hu => ?_
  rw [List.map_map]
  have hc : ∀ l : List S, l.Nodup → (l.map fun s => ind (E u ∧ X u = s)).sum = if E u ∧ X u ∈ l then 1 else 0 := by
    intro l
    induction l with
    | nil => simp
    | cons s l ih =>
      intro hn
      rw [List.nodup_cons] at hn
      rw [List.map_cons, List.sum_cons, ih hn.2, ind]
      by_cases he : E u
      · by_cases hx : X u = s
        · rw [if_pos ⟨he, hx⟩, if_neg (fun hh => hn.1 (hx ▸ hh.2)), if_pos ⟨he, by simp [hx]⟩]
        · rw [if_neg (fun hh => hx hh.2), zero_add]
          simp [hx]
      · rw [if_neg (fun hh => he hh.1), if_neg (fun hh => he hh.1), if_neg (fun hh => he hh.1)]
  have e := hc l hl
  simp only [Function.comp_def]
  rw [e]
  by_cases he : E u
  · rw [if_pos ⟨he, hX u hu⟩, if_pos he]; simp
  · rw [if_neg fun hh => he hh.1, if_neg he]; simp

end BN

namespace Causal
variable {B : BN V S K} {sfx : V → Nat → V} {dos : List (Obs V S)} {tg : List (V × Nat)}

/-- The event a counterfactual query asks about: each target has its state in its world. -/
def Outcomes (B : BN V S K) (sfx : V → Nat → V) (dos : List (Obs V S)) (tg : List (V × Nat)) (a u : V → S) : Prop :=
  ∀ q ∈ tg, B.outcome u (dos.getD (q.2 - 1) []) q.1 = a (sfx q.1 q.2)

/-- The probability of that event together with the evidence. -/
noncomputable def cfEvent (B : BN V S K) (sfx : V → Nat → V) (dos : List (Obs V S)) (tg : List (V × Nat)) (ev : Obs V S) (a : V → S) : K :=
  B.pr fun u => B.Holds B.roots B.inner u ([], ev) ∧ Outcomes B sfx dos tg a u

theorem CfOk.doOk (hq : CfOk B sfx dos tg) {q : V × Nat} (hqt : q ∈ tg) :
    B.DoOk (dos.getD (q.2 - 1) []) ∧ dos[q.2 - 1]? = some (dos.getD (q.2 - 1) []) ∧ dos.getD (q.2 - 1) [] ∈ dos := by
  obtain ⟨_, h1, h2, _⟩ := hq.target q hqt
  have hl : q.2 - 1 < dos.length := by omega
  have e : dos[q.2 - 1]? = some (dos.getD (q.2 - 1) []) := by
    rw [List.getD_eq_getElem?_getD, List.getElem?_eq_getElem hl]; rfl
  have hm := List.mem_of_getElem? e
  exact ⟨fun v s hs _ => hq.doStates _ hm v s hs, e, hm⟩

theorem cfEvent_eq (h : B.Eqs B.inner) (hq : CfOk B sfx dos tg) (ev obs : Obs V S) :
    B.cfProb B.roots B.inner (([], ev) :: dos.zipIdx.map fun p => (p.1, targetObs sfx tg obs (p.2 + 1))) =
      cfEvent B sfx dos tg ev (asg obs) := by
  rw [BN.cfProb_pr, cfEvent]
  refine BN.pr_congr h.valid fun u hu => ?_
  rw [List.forall_mem_cons]
  refine and_congr_right fun _ => ?_
  have hw : ∀ p ∈ dos.zipIdx, (B.Holds B.roots B.inner u (p.1, targetObs sfx tg obs (p.2 + 1)) ↔
      ∀ v, (v, p.2 + 1) ∈ tg → B.outcome u p.1 v = asg obs (sfx v (p.2 + 1))) := by
    intro p hp
    obtain ⟨_, _, hm⟩ := mem_zipIdx hp
    rw [BN.holds_outcome h (fun v s hs _ => hq.doStates _ hm v s hs)
      (fun v hv => (BN.mem_inner.1 (hq.target _ (hq.targetObs_keys obs _ v hv)).1).1) hu]
    constructor
    · exact fun hag v hv => hag v _ ((hq.targetObs_get obs _).2 ⟨hv, rfl⟩)
    · intro hh v s hs
      obtain ⟨k1, rfl⟩ := (hq.targetObs_get obs _).1 hs
      exact hh v k1
  constructor
  · intro hh q hqt
    obtain ⟨_, e, _⟩ := hq.doOk hqt
    have hp : (dos.getD (q.2 - 1) [], q.2 - 1) ∈ dos.zipIdx := List.mem_zipIdx_iff_getElem?.2 e
    have h1 : q.2 - 1 + 1 = q.2 := Nat.sub_add_cancel (hq.target q hqt).2.1
    have := (hw _ hp).1 (hh _ (List.mem_map.2 ⟨_, hp, rfl⟩)) q.1 (by rw [h1]; exact hqt)
    rw [h1] at this
    exact this
  · intro hh w hwm
    obtain ⟨p, hp, rfl⟩ := List.mem_map.1 hwm
    refine (hw p hp).2 fun v hv => ?_
    have := hh _ hv
    rw [Nat.add_sub_cancel, List.getD_eq_getElem?_getD, (mem_zipIdx hp).1] at this
    exact this

end Causal
end Verif
