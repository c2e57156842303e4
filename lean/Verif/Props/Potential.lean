import Verif.Inference.Potential
import Verif.Props.CausalEx
import Verif.Props.Operators
import Verif.Props.Adjust

/-!
# Laws of potential outcomes in the answers of counterfactual queries (C117)

The answers of different counterfactual queries on the same structural causal model are compared with one another.  The
statements mention only queries and their values.
-/

set_option linter.unusedSectionVars false
set_option linter.unusedSimpArgs false

namespace Verif
namespace Props
open Causal

variable {V S K : Type} [DecidableEq V] [DecidableEq S] [Inhabited S] [Field K] [LinearOrder K] [IsStrictOrderedRing K] {vt : VType}

local notation "II" => (storeOf vt : StoreImpl V S (Fl K))
local notation "LL" => (labelStoreOf vt : LabelStore V S)

variable {sfx : V → Nat → V} {dos dos' : List (Obs V S)} {tg : List (V × Nat)}

/-- The answer of a counterfactual query, as the mass of an event about potential outcomes. -/
theorem cf_outcomes {ch : Choices V} (hch : ch.Ok) {m : SCM II LL} {B : BN V S K} (h : CausalOk m B) (hq : CfOk B sfx dos tg)
    {ev : Obs V S} (hev : EvOk B ev) {e : Option (Obs V S)} (hee : e.getD [] = ev) (hp : B.marg (Dict.keys ev) (asg ev) ≠ 0) :
    ∃ m' r, new m = .ok m' ∧ counterfactualQuery sfx ch m' (tg.map Prod.fst) dos e (some (tg.map Prod.snd)) = .ok r ∧ r.WF ∧
      (∀ v, v ∈ r.vars ↔ ∃ q ∈ tg, v = sfx q.1 q.2) ∧ (∀ p ∈ r.dom, ∃ q ∈ tg, p.1 = sfx q.1 q.2 ∧ p.2 = B.states q.1) ∧
      ∀ obs, FullObs r.dom obs → r.getValue obs = .ok (.fin (cfEvent B sfx dos tg ev (asg obs) / B.marg (Dict.keys ev) (asg ev))) := by
  have hE := BN.eqs_inner h.valid h.norm h.equations
  obtain ⟨m', r, h1, h2, h3, h4, _, h6, h7⟩ := C43_counterfactual_partial hch h hq hev hee (by rw [BN.cfProb_factual hE hev]; exact hp)
  refine ⟨m', r, h1, h2, h3, h4, h6, fun obs ho => ?_⟩
  rw [h7 obs ho, cfEvent_eq hE hq, BN.cfProb_factual hE hev]

/-- Assignments that give the same states to the targets. -/
theorem asg_of_get? {o o' : Obs V S} {v w : V} (h : Dict.get? o' w = Dict.get? o v) : (asg o' : V → S) w = asg o v := by
  rw [asg, over, asg, over, h]

theorem over_none (B : BN V S K) (hB : B.Valid) (hn : B.Normalised) : B.marg (Dict.keys ([] : Obs V S)) (asg []) = 1 :=
  BN.marg_nil hB hn _

/-! ### Numbers of worlds -/

/-- **C117** the worlds are only numbers: if each target is moved to a world in which the same states are imposed (in
whatever order), the value at the states moved likewise is the same.  So worlds may be permuted, equal ones merged, and
worlds without a target left out. -/
theorem C117_worlds {ch ch' : Choices V} (hch : ch.Ok) (hch' : ch'.Ok) {m : SCM II LL} {B : BN V S K} (h : CausalOk m B) {π : Nat → Nat}
    (hq : CfOk B sfx dos tg) (hq' : CfOk B sfx dos' (tg.map fun q => (q.1, π q.2)))
    (hw : ∀ q ∈ tg, ∀ v, Dict.get? (dos'.getD (π q.2 - 1) []) v = Dict.get? (dos.getD (q.2 - 1) []) v)
    {ev : Obs V S} (hev : EvOk B ev) (hp : B.marg (Dict.keys ev) (asg ev) ≠ 0) :
    ∃ m' r r', new m = .ok m' ∧
      counterfactualQuery sfx ch m' (tg.map Prod.fst) dos (some ev) (some (tg.map Prod.snd)) = .ok r ∧
      counterfactualQuery sfx ch' m' (tg.map Prod.fst) dos' (some ev) (some (tg.map fun q => π q.2)) = .ok r' ∧
      ∀ obs obs', FullObs r.dom obs → FullObs r'.dom obs' →
        (∀ q ∈ tg, Dict.get? obs' (sfx q.1 (π q.2)) = Dict.get? obs (sfx q.1 q.2)) → r'.getValue obs' = r.getValue obs := by
  have hE := BN.eqs_inner h.valid h.norm h.equations
  obtain ⟨m', r, h1, h2, _, _, _, h6⟩ := cf_outcomes hch h hq hev (e := some ev) rfl hp
  obtain ⟨m'', r', k1, k2, _, _, _, k6⟩ := cf_outcomes hch' h hq' hev (e := some ev) rfl hp
  rw [h1] at k1
  cases k1
  rw [List.map_map, List.map_map] at k2
  refine ⟨m', r, r', h1, h2, k2, fun obs obs' ho ho' hs => ?_⟩
  rw [h6 obs ho, k6 obs' ho']
  congr 3
  refine BN.pr_congr h.valid fun u hu => and_congr_right fun _ => ?_
  have hout : ∀ q ∈ tg, B.outcome u (dos'.getD (π q.2 - 1) []) q.1 = B.outcome u (dos.getD (q.2 - 1) []) q.1 := by
    intro q hqt
    obtain ⟨d1, _, _⟩ := hq.doOk hqt
    obtain ⟨d2, _, _⟩ := hq'.doOk (List.mem_map.2 ⟨q, hqt, rfl⟩)
    refine BN.outcome_compose hE d1 d2 hu (fun v s hv => by rw [hw q hqt v]; exact hv) (fun v hv s hvs => ?_) _
      (BN.mem_inner.1 (hq.target q hqt).1).1
    rw [hw q hqt v] at hvs
    exact ((BN.outcome_spec hE d1 hu).2 v hv).2.1 s hvs
  constructor
  · intro hh q hqt
    have := hh _ (List.mem_map.2 ⟨q, hqt, rfl⟩)
    rw [← hout q hqt, ← asg_of_get? (hs q hqt)]
    exact this
  · intro hh q' hqt'
    obtain ⟨q, hqt, rfl⟩ := List.mem_map.1 hqt'
    show B.outcome u (dos'.getD (π q.2 - 1) []) q.1 = _
    rw [hout q hqt, hh q hqt]
    exact (asg_of_get? (hs q hqt)).symm

/-! ### Composition -/

/-- **C117** composition: that the variables of `c` have the states `c` and the variables `T` the states `t` when `d` is
imposed is as probable as that the variables of `c` have the states `c` when `d` is imposed and `T` the states `t` when
`d` and `c` are imposed. -/
theorem C117_composition {ch ch' : Choices V} (hch : ch.Ok) (hch' : ch'.Ok) {m : SCM II LL} {B : BN V S K} (h : CausalOk m B)
    {d c : Obs V S} {T : List V} (hq : CfOk B sfx [d] ((T ++ Dict.keys c).map fun t => (t, 1)))
    (hq' : CfOk B sfx [d ++ c, d] (T.map (fun t => (t, 1)) ++ (Dict.keys c).map fun t => (t, 2)))
    {ev : Obs V S} (hev : EvOk B ev) (hp : B.marg (Dict.keys ev) (asg ev) ≠ 0) :
    ∃ m' r r', new m = .ok m' ∧
      counterfactualQuery sfx ch m' (T ++ Dict.keys c) [d] (some ev) (some ((T ++ Dict.keys c).map fun _ => 1)) = .ok r ∧
      counterfactualQuery sfx ch' m' (T ++ Dict.keys c) [d ++ c, d] (some ev)
        (some (T.map (fun _ => 1) ++ (Dict.keys c).map fun _ => 2)) = .ok r' ∧
      ∀ obs obs', FullObs r.dom obs → FullObs r'.dom obs' →
        (∀ t ∈ T, Dict.get? obs' (sfx t 1) = Dict.get? obs (sfx t 1)) →
        (∀ v s, Dict.get? c v = some s → Dict.get? obs (sfx v 1) = some s ∧ Dict.get? obs' (sfx v 2) = some s) →
        r'.getValue obs' = r.getValue obs := by
  have hE := BN.eqs_inner h.valid h.norm h.equations
  obtain ⟨m', r, h1, h2, _, _, _, h6⟩ := cf_outcomes hch h hq hev (e := some ev) rfl hp
  obtain ⟨m'', r', k1, k2, _, _, _, k6⟩ := cf_outcomes hch' h hq' hev (e := some ev) rfl hp
  rw [h1] at k1
  cases k1
  simp only [List.map_append, List.map_map, Function.comp_def, List.map_id'] at h2 k2
  refine ⟨m', r, r', h1, ?_, k2, fun obs obs' ho ho' hT hc => ?_⟩
  · rw [List.map_append]; exact h2
  have hd : B.DoOk d := fun v s hs _ => hq.doStates d (by simp) v s hs
  have hd' : B.DoOk (d ++ c) := fun v s hs _ => hq'.doStates (d ++ c) (by simp) v s hs
  have hTn : ∀ t ∈ T, t ∈ B.nodes := fun t ht =>
    (BN.mem_inner.1 (hq.target (t, 1) (List.mem_map.2 ⟨t, List.mem_append_left _ ht, rfl⟩)).1).1
  have ha : ∀ v s, Dict.get? c v = some s → (asg obs : V → S) (sfx v 1) = s ∧ (asg obs' : V → S) (sfx v 2) = s := fun v s hv =>
    ⟨by rw [asg, over_of_get? (hc v s hv).1], by rw [asg, over_of_get? (hc v s hv).2]⟩
  have hkey : ∀ v ∈ Dict.keys c, ∃ s, Dict.get? c v = some s := fun v hv => Option.isSome_iff_exists.1 (Dict.get?_isSome.2 hv)
  rw [h6 obs ho, k6 obs' ho']
  congr 3
  refine BN.pr_congr h.valid fun u hu => and_congr_right fun _ => ?_
  -- both events say that `c` is the case under `d`
  have hcomp : (∀ v s, Dict.get? c v = some s → B.outcome u d v = s) → ∀ t ∈ T, B.outcome u (d ++ c) t = B.outcome u d t := by
    intro hcs t ht
    refine BN.outcome_compose hE hd hd' hu (fun v s hv => ?_) (fun v hv s hvs => ?_) t (hTn t ht)
    · rw [Dict.get?_append, hv]; rfl
    · rw [Dict.get?_append] at hvs
      cases hg : Dict.get? d v with
      | none => rw [hg] at hvs; exact hcs v s (by simpa using hvs)
      | some s' =>
        rw [hg] at hvs
        have e : s' = s := by simpa using hvs
        subst e
        exact ((BN.outcome_spec hE hd hu).2 v hv).2.1 s' hg
  constructor
  · intro hh
    have hcs : ∀ v s, Dict.get? c v = some s → B.outcome u d v = s := fun v s hv => by
      have := hh (v, 2) (List.mem_append_right _ (List.mem_map.2 ⟨v, Dict.mem_keys_of_mem (Dict.mem_of_get? hv), rfl⟩))
      exact this.trans (ha v s hv).2
    intro q hqt
    obtain ⟨t, ht, rfl⟩ := List.mem_map.1 hqt
    show B.outcome u d t = asg obs (sfx t 1)
    rcases List.mem_append.1 ht with ht | ht
    · rw [← hcomp hcs t ht, ← asg_of_get? (hT t ht)]
      exact hh (t, 1) (List.mem_append_left _ (List.mem_map.2 ⟨t, ht, rfl⟩))
    · obtain ⟨s, hs⟩ := hkey t ht
      rw [hcs t s hs, (ha t s hs).1]
  · intro hh
    have hcs : ∀ v s, Dict.get? c v = some s → B.outcome u d v = s := fun v s hv => by
      have := hh (v, 1) (List.mem_map.2 ⟨v, List.mem_append_right _ (Dict.mem_keys_of_mem (Dict.mem_of_get? hv)), rfl⟩)
      exact this.trans (ha v s hv).1
    intro q hqt
    rcases List.mem_append.1 hqt with hqt | hqt
    · obtain ⟨t, ht, rfl⟩ := List.mem_map.1 hqt
      show B.outcome u (d ++ c) t = asg obs' (sfx t 1)
      rw [hcomp hcs t ht, asg_of_get? (hT t ht)]
      exact hh (t, 1) (List.mem_map.2 ⟨t, List.mem_append_left _ ht, rfl⟩)
    · obtain ⟨t, ht, rfl⟩ := List.mem_map.1 hqt
      obtain ⟨s, hs⟩ := hkey t ht
      show B.outcome u d t = asg obs' (sfx t 2)
      rw [hcs t s hs, (ha t s hs).2]

/-! ### Summing out a target -/

/-- **C117** summing a target out of an answer gives the answer of the query without it. -/
theorem C117_marginal {ch ch' : Choices V} (hch : ch.Ok) (hch' : ch'.Ok) {m : SCM II LL} {B : BN V S K} (h : CausalOk m B) {x : V × Nat}
    (hq : CfOk B sfx dos (x :: tg)) (hne : tg ≠ []) {ev : Obs V S} (hev : EvOk B ev) (hp : B.marg (Dict.keys ev) (asg ev) ≠ 0) :
    ∃ m' r r' s, new m = .ok m' ∧
      counterfactualQuery sfx ch m' (x.1 :: tg.map Prod.fst) dos (some ev) (some (x.2 :: tg.map Prod.snd)) = .ok r ∧
      counterfactualQuery sfx ch' m' (tg.map Prod.fst) dos (some ev) (some (tg.map Prod.snd)) = .ok r' ∧
      r.marginalize [sfx x.1 x.2] = .ok s ∧ SameTable (tg.map fun q => sfx q.1 q.2) s r' := by
  have hE := BN.eqs_inner h.valid h.norm h.equations
  have hq' : CfOk B sfx dos tg :=
    ⟨hq.toWorldsOk, hne, (List.nodup_cons.1 hq.nodup).2, fun q hqt => hq.target q (List.mem_cons_of_mem _ hqt)⟩
  obtain ⟨m', r, h1, h2, h3, h4, h5, h6⟩ := cf_outcomes hch h hq hev (e := some ev) rfl hp
  obtain ⟨m'', r', k1, k2, k3, k4, k5, k6⟩ := cf_outcomes hch' h hq' hev (e := some ev) rfl hp
  rw [h1] at k1
  cases k1
  -- the states of the copies
  have hinj : ∀ q ∈ x :: tg, ∀ q' ∈ x :: tg, sfx q.1 q.2 = sfx q'.1 q'.2 → q = q' := by
    intro q hqt q' hqt' e
    obtain ⟨a1, a2, a3, _⟩ := hq.target q hqt
    obtain ⟨b1, b2, b3, _⟩ := hq.target q' hqt'
    obtain ⟨e1, e2⟩ := hq.inj _ a1 _ b1 _ _ a2 a3 b2 b3 e
    exact Prod.ext e1 e2
  let D : V → List S := fun v => (((x :: tg).find? fun q => sfx q.1 q.2 = v).map fun q => B.states q.1).getD []
  have hD : ∀ q ∈ x :: tg, D (sfx q.1 q.2) = B.states q.1 := by
    intro q hqt
    show (((x :: tg).find? fun q' => sfx q'.1 q'.2 = sfx q.1 q.2).map fun q => B.states q.1).getD [] = _
    cases hf : (x :: tg).find? fun q' => sfx q'.1 q'.2 = sfx q.1 q.2 with
    | none =>
      have := List.find?_eq_none.1 hf q hqt
      simp at this
    | some q' =>
      have e1 := List.find?_some hf
      rw [hinj q' (List.mem_of_find?_eq_some hf) q hqt (by simpa using e1)]
      rfl
  have hdr : ∀ p ∈ r.dom, p.2 = D p.1 := fun p hp => by
    obtain ⟨q, hqt, e1, e2⟩ := h5 p hp
    rw [e1, e2, hD q hqt]
  have hdr' : ∀ p ∈ r'.dom, p.2 = D p.1 := fun p hp => by
    obtain ⟨q, hqt, e1, e2⟩ := k5 p hp
    rw [e1, e2, hD q (List.mem_cons_of_mem _ hqt)]
  have hcong : ∀ (tg' : List (V × Nat)) (a b : V → S), (∀ q ∈ tg', a (sfx q.1 q.2) = b (sfx q.1 q.2)) →
      cfEvent B sfx dos tg' ev a = cfEvent B sfx dos tg' ev b := by
    intro tg' a b hab
    refine BN.pr_congr h.valid fun u _ => and_congr_right fun _ => ?_
    exact forall₂_congr fun q hqt => by rw [hab q hqt]
  have rep : ∀ (g : Factor II) (tg' : List (V × Nat)), g.WF → (∀ p ∈ g.dom, p.2 = D p.1) → (∀ v, v ∈ g.vars ↔ ∃ q ∈ tg', v = sfx q.1 q.2) →
      (∀ obs, FullObs g.dom obs → g.getValue obs = .ok (.fin (cfEvent B sfx dos tg' ev (asg obs) / B.marg (Dict.keys ev) (asg ev)))) →
      Factor.Rep D g fun a => cfEvent B sfx dos tg' ev a / B.marg (Dict.keys ev) (asg ev) := by
    intro g tg' g1 g2 g3 g4
    refine FExpr.rep_of_reads (storeOf_lawful vt) g1 g2 fun obs a hi hc => ?_
    rw [g4 obs (fullObs_of_covers hi hc), hcong tg' (asg obs) a fun q hqt => ?_]
    rw [asg, over_of_get? (hc _ ((g3 _).2 ⟨q, hqt, rfl⟩))]
  have hR := rep r _ h3 hdr h4 h6
  have hR' := rep r' _ k3 hdr' k4 k6
  obtain ⟨s, s1, s2, s3, s4, _⟩ := hR.marginalize (storeOf_lawful vt) (xs := [sfx x.1 x.2])
    (fun v hv => by rw [List.mem_singleton.1 hv]; exact (h4 _).2 ⟨x, List.mem_cons_self, rfl⟩) (List.nodup_singleton _)
  have hxn : ∀ q ∈ tg, sfx q.1 q.2 ≠ sfx x.1 x.2 := fun q hqt e =>
    (List.nodup_cons.1 hq.nodup).1 (hinj q (List.mem_cons_of_mem _ hqt) x List.mem_cons_self e ▸ hqt)
  have hsv : ∀ v, v ∈ s.vars ↔ v ∈ tg.map fun q => sfx q.1 q.2 := by
    intro v
    rw [s4, h4, List.mem_singleton, List.mem_map]
    constructor
    · rintro ⟨⟨q, hqt, e⟩, hv⟩
      rcases List.mem_cons.1 hqt with rfl | hqt
      · exact absurd e hv
      · exact ⟨q, hqt, e.symm⟩
    · rintro ⟨q, hqt, rfl⟩
      exact ⟨⟨q, List.mem_cons_of_mem _ hqt, rfl⟩, hxn q hqt⟩
  refine ⟨m', r, r', s, h1, h2, k2, s1, hsv, fun v => ?_, fun obs ho => ?_⟩
  · rw [k4, List.mem_map]
    exact exists_congr fun q => and_congr_right fun _ => eq_comm
  -- values
  have hcov : ∀ v ∈ s.vars, Dict.get? obs v = some (asg obs v) := fun v hv => ho.covers v hv
  have hst := Factor.states_of_inDom s2.dom ho.inDom
  have ho' : FullObs r'.dom obs := by
    intro p hp
    obtain ⟨q, hqt, e1, e2⟩ := k5 p hp
    have hv : p.1 ∈ s.vars := (hsv _).2 (List.mem_map.2 ⟨q, hqt, e1.symm⟩)
    exact ⟨asg obs p.1, by rw [hdr' p hp]; exact hst _ hv, hcov _ hv⟩
  refine ⟨_, ?_, k6 obs ho'⟩
  rw [s2.getValue (storeOf_lawful vt) ho]
  congr 2
  show ((D (sfx x.1 x.2)).map fun t => cfEvent B sfx dos (x :: tg) ev (upd (asg obs) (sfx x.1 x.2) t) / _).sum = _
  rw [hD x List.mem_cons_self]
  obtain ⟨hxd, _, _⟩ := hq.doOk (q := x) List.mem_cons_self
  have hxv := (BN.mem_inner.1 (hq.target x List.mem_cons_self).1).1
  have hsum := BN.pr_sum_value h.valid (h.valid.nodupStates _ hxv) (fun u => B.Holds B.roots B.inner u ([], ev) ∧ Outcomes B sfx dos tg (asg obs) u)
    (fun u => B.outcome u (dos.getD (x.2 - 1) []) x.1) (fun u hu => BN.outcome_states hE hxd hu hxv)
  have hterm : ∀ t, cfEvent B sfx dos (x :: tg) ev (upd (asg obs) (sfx x.1 x.2) t) =
      B.pr fun u => (B.Holds B.roots B.inner u ([], ev) ∧ Outcomes B sfx dos tg (asg obs) u) ∧ B.outcome u (dos.getD (x.2 - 1) []) x.1 = t := by
    intro t
    refine BN.pr_congr h.valid fun u _ => ?_
    rw [and_assoc]
    refine and_congr_right fun _ => ?_
    rw [Outcomes, List.forall_mem_cons, upd_same, and_comm]
    refine and_congr_left fun _ => forall₂_congr fun q hqt => ?_
    rw [upd_ne _ _ (hxn q hqt)]
  simp only [hterm, div_eq_mul_inv]
  rw [List.sum_map_mul_right, hsum]
  rfl

/-! ### Without evidence, and averages over evidence -/

/-- **C117** with one world and no evidence the counterfactual answer is the interventional one. -/
theorem C117_interventional {ch ch' : Choices V} (hch : ch.Ok) (hch' : ch'.Ok) {m : SCM II LL} {B : BN V S K} (h : CausalOk m B)
    {d : Obs V S} {T : List V} (hq : CfOk B sfx [d] (T.map fun t => (t, 1))) :
    ∃ m' r r', new m = .ok m' ∧ counterfactualQuery sfx ch m' T [d] none (some (T.map fun _ => 1)) = .ok r ∧
      causalQuery ch' m' T d none = .ok r' ∧ (∀ v, v ∈ r'.vars ↔ v ∈ T) ∧ (∀ v, v ∈ r.vars ↔ ∃ t ∈ T, v = sfx t 1) ∧
      ∀ obs obs', FullObs r.dom obs → FullObs r'.dom obs' → (∀ t ∈ T, Dict.get? obs (sfx t 1) = Dict.get? obs' t) →
        r.getValue obs = r'.getValue obs' := by
  have hE := BN.eqs_inner h.valid h.norm h.equations
  have hTi : ∀ t ∈ T, t ∈ B.inner := fun t ht => (hq.target (t, 1) (List.mem_map.2 ⟨t, ht, rfl⟩)).1
  have hTn : T.Nodup := (List.nodup_map_iff (fun a b e => by simpa using e)).1 hq.nodup
  have hdm : d ∈ [d] := List.mem_singleton.2 rfl
  have hd : B.DoOk d := fun v s hs _ => hq.doStates d hdm v s hs
  have hn : EvOk B ([] : Obs V S) := ⟨.nil, (fun v hv => by cases hv), (fun v s hs => by cases hs)⟩
  obtain ⟨m', r, h1, h2, _, h4, _, h6⟩ := cf_outcomes hch h hq hn (e := none) rfl (by rw [over_none B h.valid h.norm]; exact one_ne_zero)
  have hdev : EvOk B d := ⟨hq.doNodup d hdm, fun v hv => (BN.mem_inner.1 (hq.doInner d hdm v hv)).1, hq.doStates d hdm⟩
  have hden : B.doMarg d (Dict.keys ([] : Obs V S)) (asg []) = 1 := by
    rw [← BN.cfProb_do hE hd (hq.doInner d hdm) hn, BN.cfProb_pr]
    have := BN.cfProb_total hE
    rw [BN.cfProb_pr] at this
    rw [← this]
    refine BN.pr_congr h.valid fun u hu => ?_
    simp only [List.forall_mem_singleton]
    rw [BN.holds_outcome hE hd (by simp) hu, BN.holds_outcome hE BN.DoOk.nil (by simp) hu]
    exact ⟨fun _ v s hs => (by cases hs), fun _ v s hs => (by cases hs)⟩
  obtain ⟨m'', r', k1, k2, _, k4, k5, _, k7⟩ := C42_interventional hch' h (T := T) (d := d) (ev := []) (by simpa using hq.nonempty) hTn
    (fun t ht => ⟨(BN.mem_inner.1 (hTi t ht)).1, by simp, (hq.target (t, 1) (List.mem_map.2 ⟨t, ht, rfl⟩)).2.2.2 d rfl⟩)
    hdev hn (e := none) rfl (by rw [hden]; exact one_ne_zero)
  rw [h1] at k1
  cases k1
  simp only [List.map_map, Function.comp_def, List.map_id'] at h2
  refine ⟨m', r, r', h1, h2, k2, k5, fun v => by rw [h4]; simp, fun obs obs' ho ho' hs => ?_⟩
  rw [h6 obs ho, k7 obs' ho', hden, over_none B h.valid h.norm, div_one, div_one]
  have hst : ∀ t ∈ T, (asg obs' : V → S) t ∈ B.states t := fun t ht => Factor.states_of_inDom k4 ho'.inDom t ((k5 t).2 ht)
  have hkT : Dict.keys (T.map fun t => (t, (asg obs' : V → S) t)) = T := by simp [Dict.keys, Function.comp_def]
  have hgetT : ∀ t ∈ T, Dict.get? (T.map fun t => (t, (asg obs' : V → S) t)) t = some (asg obs' t) := fun t ht =>
    Dict.get?_of_mem (by rw [hkT]; exact hTn) (List.mem_map.2 ⟨t, ht, rfl⟩)
  have hevT : EvOk B (T.map fun t => (t, (asg obs' : V → S) t)) := by
    refine ⟨by rw [hkT]; exact hTn, by rw [hkT]; exact fun t ht => (BN.mem_inner.1 (hTi t ht)).1, fun v s hs => ?_⟩
    have hv : v ∈ T := by rw [← hkT]; exact Dict.mem_keys_of_mem (Dict.mem_of_get? hs)
    rw [hgetT v hv] at hs
    cases hs
    exact hst v hv
  have hnum : B.doMarg d (T ++ Dict.keys ([] : Obs V S)) (asg ([] ++ obs')) = B.doMarg d T (asg (T.map fun t => (t, (asg obs' : V → S) t))) := by
    rw [Dict.keys_nil, List.append_nil, List.nil_append]
    refine BN.doMarg_dep h.valid hdev.nodes T _ _ fun v hv => ?_
    rw [asg.eq_def (T.map _), over_of_get? (hgetT v hv)]
  have hcf := BN.cfProb_do hE hd (hq.doInner d hdm) hevT
  rw [hkT] at hcf
  rw [hnum, ← hcf, BN.cfProb_pr]
  congr 2
  refine BN.pr_congr h.valid fun u hu => ?_
  simp only [List.forall_mem_singleton]
  rw [BN.holds_outcome hE BN.DoOk.nil (by simp) hu, BN.holds_outcome hE hd (by rw [hkT]; exact fun t ht => (BN.mem_inner.1 (hTi t ht)).1) hu]
  constructor
  · rintro ⟨_, hh⟩ v s hs
    have hv : v ∈ T := by rw [← hkT]; exact Dict.mem_keys_of_mem (Dict.mem_of_get? hs)
    rw [hgetT v hv] at hs
    cases hs
    exact (hh (v, 1) (List.mem_map.2 ⟨v, hv, rfl⟩)).trans (asg_of_get? (hs _ hv))
  · intro hh
    refine ⟨fun v s hs => (by cases hs), fun q hqt => ?_⟩
    obtain ⟨t, ht, rfl⟩ := List.mem_map.1 hqt
    exact (hh t _ (hgetT t ht)).trans (asg_of_get? (hs t ht)).symm

/-- **C117** the answer without evidence is the average of the answers with evidence on one variable, weighted with the
probabilities of its states: the values `w s` of the query for that variable. -/
theorem C117_average {ch : Choices V} (hch : ch.Ok) {m : SCM II LL} {B : BN V S K} (h : CausalOk m B)
    (hq : CfOk B sfx dos tg) {x : V} (hx : x ∈ B.nodes) (hp : ∀ s ∈ B.states x, B.marg [x] (fun _ => s) ≠ 0) :
    ∃ m' r rx, new m = .ok m' ∧ counterfactualQuery sfx ch m' (tg.map Prod.fst) dos none (some (tg.map Prod.snd)) = .ok r ∧
      ((VEObj.new m'.base : VEObj _ II).query ch [x] none).2 = .ok rx ∧
      ∀ obs, FullObs r.dom obs → ∃ w c : S → K,
        (∀ s ∈ B.states x, rx.getValue [(x, s)] = .ok (.fin (w s)) ∧
          ∃ rs, counterfactualQuery sfx ch m' (tg.map Prod.fst) dos (some [(x, s)]) (some (tg.map Prod.snd)) = .ok rs ∧
            rs.getValue obs = .ok (.fin (c s))) ∧
        r.getValue obs = .ok (.fin ((B.states x).map fun s => w s * c s).sum) := by
  have hE := BN.eqs_inner h.valid h.norm h.equations
  have hn : EvOk B ([] : Obs V S) := ⟨.nil, (fun v hv => by cases hv), (fun v s hs => by cases hs)⟩
  obtain ⟨m', r, h1, h2, _, h4, h5, h6⟩ := cf_outcomes hch h hq hn (e := none) rfl (by rw [over_none B h.valid h.norm]; exact one_ne_zero)
  obtain ⟨m'', k1, k2, k3, _⟩ := new_ok h
  rw [h1] at k1
  cases k1
  obtain ⟨rx, x1, _, x3, x4, _, x6⟩ := C36_exact_posterior hch (VEObj.new m'.base : VEObj _ II) (k2.represents k3) h.valid h.norm
    (T := [x]) (ev := []) ⟨by simp, by simp, by simpa using hx, hn, by simp⟩ (e := none) rfl
    (by rw [over_none B h.valid h.norm]; exact one_ne_zero)
  refine ⟨m', r, rx, h1, h2, x1, fun obs ho => ?_⟩
  have hmx : ∀ s, B.marg (Dict.keys [(x, s)]) (asg [(x, s)]) = B.marg [x] fun _ => s := fun s =>
    h.valid.marg_dep _ _ _ fun v hv => by
      rw [List.mem_singleton.1 hv]
      exact over_of_get? (by simp [Dict.get?])
  have hevs : ∀ s ∈ B.states x, EvOk B [(x, s)] := fun s hs => ⟨by simp, by simpa using hx, fun v t hv => by
    have := Dict.mem_of_get? hv
    simp only [List.mem_singleton, Prod.mk.injEq] at this
    rw [this.1, this.2]; exact hs⟩
  refine ⟨fun s => B.marg [x] fun _ => s, fun s => cfEvent B sfx dos tg [(x, s)] (asg obs) / B.marg [x] fun _ => s, fun s hs => ⟨?_, ?_⟩, ?_⟩
  · have hfx : FullObs rx.dom [(x, s)] := fun p hpd => by
      have hv : p.1 = x := by simpa using (x4 p.1).1 (Dict.mem_keys_of_mem (p := p) hpd)
      refine ⟨s, by rw [x3 p hpd, hv]; exact hs, ?_⟩
      rw [hv]; simp [Dict.get?]
    rw [x6 _ hfx, over_none B h.valid h.norm, div_one]
    congr 2
    refine h.valid.marg_dep _ _ _ fun v hv => ?_
    have hv : v = x := by simpa using hv
    rw [hv]
    exact over_of_get? (by simp [Dict.get?])
  · obtain ⟨m2, rs, q1, q2, _, q4, q5, q6⟩ := cf_outcomes hch h hq (hevs s hs) (e := some [(x, s)]) rfl (by rw [hmx]; exact hp s hs)
    rw [h1] at q1
    cases q1
    refine ⟨rs, q2, ?_⟩
    rw [q6 obs ?_, hmx]
    intro p hpd
    obtain ⟨q, hqt, e1, e2⟩ := q5 p hpd
    have hv : p.1 ∈ r.vars := (h4 _).2 ⟨q, hqt, e1⟩
    obtain ⟨st, hst⟩ := Dict.mem_keys.1 hv
    obtain ⟨q', hqt', e1', e2'⟩ := h5 _ hst
    obtain ⟨t, ht, hg⟩ := ho _ hst
    obtain ⟨a1, a2, a3, _⟩ := hq.target q hqt
    obtain ⟨b1, b2, b3, _⟩ := hq.target q' hqt'
    have e := (hq.inj _ a1 _ b1 _ _ a2 a3 b2 b3 (e1.symm.trans e1')).1
    refine ⟨t, ?_, hg⟩
    rw [e2, e, ← e2']
    exact ht
  · rw [h6 obs ho, over_none B h.valid h.norm, div_one]
    congr 2
    have hterm : ∀ s ∈ B.states x, (B.marg [x] fun _ => s) * (cfEvent B sfx dos tg [(x, s)] (asg obs) / B.marg [x] fun _ => s) =
        B.pr fun u => (B.Holds B.roots B.inner u ([], []) ∧ Outcomes B sfx dos tg (asg obs) u) ∧ B.outcome u [] x = s := by
      intro s hs
      rw [mul_div_cancel₀ _ (hp s hs)]
      refine BN.pr_congr h.valid fun u hu => ?_
      rw [BN.holds_outcome hE BN.DoOk.nil (by simpa using hx) hu, BN.holds_outcome hE BN.DoOk.nil (by simp) hu]
      constructor
      · rintro ⟨ha, hb⟩
        exact ⟨⟨fun v t hv => (by cases hv), hb⟩, ha x s (by simp [Dict.get?])⟩
      · rintro ⟨⟨_, hb⟩, ha⟩
        refine ⟨fun v t hv => ?_, hb⟩
        have := Dict.mem_of_get? hv
        simp only [List.mem_singleton, Prod.mk.injEq] at this
        rw [this.1, this.2, ha]
    rw [List.map_congr_left hterm]
    exact (BN.pr_sum_value h.valid (h.valid.nodupStates _ hx) _ (fun u => B.outcome u [] x)
      (fun u hu => BN.outcome_states hE BN.DoOk.nil hu hx)).symm

/-! ### Examples -/

/-- Queries on the example `X → Y → Z`: at most one of `X` and `Y` is imposed in each world. -/
theorem ex_cfOk {vt : VType} {b : DagModel (Factor (IS vt PyStr)) PyStr Char} (hb : exBnet vt = .ok b) {dos : List (Obs PyStr Char)}
    {tg : List (PyStr × Nat)}
    (hd : ∀ d ∈ dos, d = [] ∨ d = [(sX, '0')] ∨ d = [(sX, '1')] ∨ d = [(sY, '0')] ∨ d = [(sY, '1')]) (hl : dos.length ≤ 2) (hne : tg ≠ [])
    (hn : tg.Nodup) (ht : ∀ q ∈ tg, q.1 ∈ [sX, sY, sZ] ∧ 1 ≤ q.2 ∧ q.2 ≤ dos.length ∧ q.1 ∉ Dict.keys (dos.getD (q.2 - 1) [])) :
    CfOk (exB vt b) pySfx dos tg := by
  obtain ⟨f1, f2, f3, f4, f5, f6, f7, f8, f9, f10, f11, f12⟩ := exB_facts hb
  refine ⟨worldsOk_str ?_ ?_ ?_ ?_ (fun v hv i h1 h2 => ex_fresh hb v hv i h1 (h2.trans hl)), hne, hn, ?_⟩
  · intro d hdd
    rcases hd d hdd with rfl | rfl | rfl | rfl | rfl <;> simp
  · intro d hdd v hv
    rw [f2]
    rcases hd d hdd with rfl | rfl | rfl | rfl | rfl <;> simp at hv <;> rw [hv] <;> decide
  · intro d hdd v s hs
    have := Dict.mem_of_get? hs
    rcases hd d hdd with rfl | rfl | rfl | rfl | rfl <;>
      simp only [List.mem_singleton, List.not_mem_nil, Prod.mk.injEq] at this <;> rw [this.1, this.2]
    · rw [f4]; decide
    · rw [f4]; decide
    · rw [f5]; decide
    · rw [f5]; decide
  · intro d hdd v hv
    rcases hd d hdd with rfl | rfl | rfl | rfl | rfl <;>
      simp only [Dict.keys_cons, Dict.keys_nil, List.mem_singleton, List.not_mem_nil] at hv <;> rw [hv]
    · exact ⟨sY, by rw [f1]; decide, f8, by decide⟩
    · exact ⟨sY, by rw [f1]; decide, f8, by decide⟩
    · exact ⟨sZ, by rw [f1]; decide, f9, by decide⟩
    · exact ⟨sZ, by rw [f1]; decide, f9, by decide⟩
  · intro q hq
    obtain ⟨t1, t2, t3, t4⟩ := ht q hq
    refine ⟨by rw [f2]; exact t1, t2, t3, fun d hdd => ?_⟩
    rw [List.getD_eq_getElem?_getD, hdd] at t4
    exact t4

/-- The laws apply to the example: two worlds exchanged; `Y` seen and `Y` imposed; a target summed out; one world without
evidence; the average over `Z`. -/
theorem C117_example (vt : VType) : ∃ (m : SCM (IS vt PyStr) (LS vt PyStr)) (b : DagModel (Factor (IS vt PyStr)) PyStr Char),
    exScm vt none false = .ok m ∧ CausalOk m (exB vt b) ∧
    CfOk (exB vt b) pySfx [[(sY, '1')], [(sX, '0')]] [(sZ, 1), (sY, 2)] ∧
    CfOk (exB vt b) pySfx [[(sX, '0')], [(sY, '1')]] ([(sZ, 1), (sY, 2)].map fun q => (q.1, 3 - q.2)) ∧
    CfOk (exB vt b) pySfx [[]] (([sZ] ++ Dict.keys [(sY, '1')]).map fun t => (t, 1)) ∧
    CfOk (exB vt b) pySfx [[] ++ [(sY, '1')], []] ([sZ].map (fun t => (t, 1)) ++ (Dict.keys [(sY, '1')]).map fun t => (t, 2)) ∧
    CfOk (exB vt b) pySfx [[(sX, '0')]] ([sZ, sY].map fun t => (t, 1)) ∧
    EvOk (exB vt b) [(sZ, '1')] ∧ (exB vt b).marg [sZ] (asg [(sZ, '1')]) ≠ 0 ∧
    sZ ∈ (exB vt b).nodes ∧ ∀ s ∈ (exB vt b).states sZ, (exB vt b).marg [sZ] (fun _ => s) ≠ 0 := by
  obtain ⟨m, b, h1, hb, h3, h4, _⟩ := ex_causal vt
  obtain ⟨f1, f2, f3, f4, f5, f6, f7, f8, f9, f10, f11, f12⟩ := exB_facts hb
  refine ⟨m, b, h1, h3, ex_cfOk hb (by decide) (by decide) (by decide) (by decide) (by decide), ex_cfOk hb (by decide) (by decide) (by decide) (by decide) (by decide),
    ex_cfOk hb (by decide) (by decide) (by decide) (by decide) (by decide), ex_cfOk hb (by decide) (by decide) (by decide) (by decide) (by decide),
    ex_cfOk hb (by decide) (by decide) (by decide) (by decide) (by decide), ?_, ?_, ?_, ?_⟩
  · refine ⟨by simp, by rw [f1]; decide, fun w s h => ?_⟩
    have := Dict.mem_of_get? h
    simp only [List.mem_singleton, Prod.mk.injEq] at this
    rw [this.1, this.2, f6]; decide
  · rw [h3.valid.marg_dep _ _ (fun _ => '1')]
    · exact f12
    · intro v hv
      rw [List.mem_singleton.1 hv]
      exact over_of_get? rfl
  · rw [f1]; decide
  · rw [f6]
    have hc : (match exBnet vt with
        | .ok b => decide ((exB vt b).marg [sZ] (fun _ => '0') ≠ 0)
        | .error _ => false) = true := by cases vt <;> decide +kernel
    rw [hb] at hc
    have hc := of_decide_eq_true hc
    intro s hs
    simp only [List.mem_cons, List.not_mem_nil, or_false] at hs
    rcases hs with rfl | rfl
    · exact hc
    · exact f12

/-- **C117** composition as the code computes it: `Z = 1` and `Y = 1` seen, and `Z = 1` under `do(Y = 1)` with `Y = 1` seen,
are equally probable; `Z = 1` under `do(Y = 1)` alone is not. -/
theorem C117_example_composition (vt : VType) :
    exCf vt [sZ, sY] [[]] (some [(sX, '1')]) (some [1, 1]) [(pySfx sZ 1, '1'), (pySfx sY 1, '1')] =
      exCf vt [sZ, sY] [[(sY, '1')], []] (some [(sX, '1')]) (some [1, 2]) [(pySfx sZ 1, '1'), (pySfx sY 2, '1')] ∧
    exCf vt [sZ, sY] [[]] (some [(sX, '1')]) (some [1, 1]) [(pySfx sZ 1, '1'), (pySfx sY 1, '1')] ≠
      exCf vt [sZ] [[(sY, '1')]] (some [(sX, '1')]) (some [1]) [(pySfx sZ 1, '1')] := by
  cases vt <;> decide +kernel

end Props
end Verif
