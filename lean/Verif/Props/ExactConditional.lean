import Verif.Props.Inference

/-!
# What a conditional query returns when the evidence is impossible (C39)

`C39_conditional_partial` needs evidence of non-zero probability. Without it the answer is the conditional distribution of
the network that is left after pruning (`C39_pruned`), and it is right exactly at the cells where the conditions are
possible or the pruned network gives probability zero (`C39_exact`).
-/

set_option linter.unusedSectionVars false
set_option linter.unusedSimpArgs false

namespace Verif.Props
open Verif Relation

variable {V S K : Type} [DecidableEq V] [DecidableEq S] [Nonempty S] [Field K] [LinearOrder K] [IsStrictOrderedRing K]
  {F : Type} [VEFactor F (storeOf .numpy : StoreImpl V S (Fl K))]

theorem pruned_nonneg {m : DagModel F V S} {B : BN V S K} (hr : Represents m B) (hB : B.Valid) (hnn : B.NonNeg)
    {T : List V} (hT : ∀ t ∈ T, t ∈ B.nodes) {ev : Obs V S} (he : EvOk B ev) : (prunedBN B m.graph T ev).NonNeg := by
  intro v hv a ha
  have hTg : ∀ t ∈ T, t ∈ m.graph.nodes := fun t ht => hr.nodes ▸ hT t ht
  obtain ⟨M, P, hs⟩ := irrelevant_spec hr.wf (hr.acyclic hB) (E := Dict.keys ev) hTg
  have hvm : v ∈ m.graph.nodes := (List.mem_filter.1 hv).1
  have hvB : v ∈ B.nodes := hr.nodes ▸ hvm
  set c := over (ev.filter fun q => q.1 ∈ B.parents v) a with hc
  have hw : ∀ w ∈ v :: B.parents v, c w ∈ B.states w := by
    intro w hw
    by_cases hk : w ∈ Dict.keys (ev.filter fun q => q.1 ∈ B.parents v)
    · obtain ⟨s, hs'⟩ := Option.isSome_iff_exists.1 (Dict.get?_isSome.2 hk)
      rw [hc, over_of_get? hs']
      rw [Dict.get?_filter_key ev (fun v' => v' ∈ B.parents v)] at hs'
      split at hs'
      · exact he.states w s hs'
      · cases hs'
    · rw [hc, over_of_not_mem hk]
      refine ha w ?_
      rcases List.mem_cons.1 hw with rfl | hp
      · exact hv
      · refine hs.keep v hv w ((hr.parents v hvB w).1 hp) fun hE => hk ?_
        obtain ⟨s, hs'⟩ := Option.isSome_iff_exists.1 (Dict.get?_isSome.2 hE)
        refine Dict.get?_isSome.1 ?_
        rw [Dict.get?_filter_key ev (fun v' => v' ∈ B.parents v), if_pos (by simpa using hp), hs']
        rfl
  show 0 ≤ B.table v c
  rw [← hB.ctab_eq hvB hw]
  exact hnn v hvB (B.clamp c) (hB.clamp_in c)

/-- **C39** in general: a conditional query with the default store and non-negative tables returns the conditional
distribution of the pruned network, whatever the evidence; 0 where its condition is impossible (in a field `x / 0 = 0`). -/
theorem C39_pruned {ch : Choices V} (hch : ch.Ok) (o : VEObj F (storeOf .numpy : StoreImpl V S (Fl K))) {B : BN V S K}
    (hr : Represents o.model B) (hB : B.Valid) (hn : B.Normalised) (hnn : B.NonNeg) {T C : List V} {ev : Obs V S}
    (hTn : T.Nodup) (hTC : ∀ t ∈ T, t ∉ C) (h0 : T ++ C ≠ []) (hT : ∀ t ∈ T ++ C, t ∈ B.nodes) (he : EvOk B ev)
    (hdis : ∀ t ∈ T ++ C, t ∉ Dict.keys ev) {e : Option (Obs V S)} (hev : e.getD [] = ev) :
    ∃ (m' : DagModel (Factor (storeOf .numpy : StoreImpl V S (Fl K))) V S) (B' : BN V S K) (r : _),
      minimalize o.model (ch.setOrd (T ++ C)) ev = .ok m' ∧ Represents m' B' ∧ B'.Valid ∧
      (o.queryCond ch T C e).2 = .ok r ∧ (∀ p ∈ r.dom, p.2 = B.states p.1) ∧ (∀ v, v ∈ r.vars ↔ v ∈ T ∨ v ∈ C) ∧
      ∀ obs, FullObs r.dom obs → r.getValue obs = .ok (.fin
        (B'.marg (T ++ (C ++ Dict.keys ev)) (asg (ev ++ obs)) / B'.marg (C ++ Dict.keys ev) (asg (ev ++ obs)))) ∧
        (B'.marg (C ++ Dict.keys ev) (asg (ev ++ obs)) = 0 → B'.marg (T ++ (C ++ Dict.keys ev)) (asg (ev ++ obs)) = 0) := by
  have hI := storeOf_lawful (V := V) (S := S) (α := Fl K) .numpy
  obtain ⟨W, hW⟩ : ∃ W, ch.setOrd (T ++ C) = W := ⟨_, rfl⟩
  obtain ⟨w1, w2⟩ := hch.setOrd (T ++ C)
  rw [hW] at w1 w2
  have hWn : ∀ t ∈ W, t ∈ B.nodes := fun t ht => hT t ((w2 t).1 ht)
  have hW0 : W ≠ [] := by
    intro hc
    obtain ⟨x, hx⟩ := List.exists_mem_of_ne_nil _ h0
    have := (w2 x).2 hx
    rw [hc] at this; cases this
  have hWd : ∀ t ∈ W, t ∉ Dict.keys ev := fun t ht => hdis t ((w2 t).1 ht)
  have hq : GoodQuery B W ev := ⟨hW0, w1, hWn, he, hWd⟩
  obtain ⟨m', p, h1, hm', h2, h3, h4, h5, h6, h7⟩ := ve_core hI hch hr hB hn hWn w1 hW0 he hWd
  obtain ⟨v1, _⟩ := pruned_valid hr hB hn hWn he
  have vnn := pruned_nonneg hr hB hnn hWn he
  have hWg : ∀ t ∈ W, t ∈ o.model.graph.nodes := fun t ht => hr.nodes ▸ hWn t ht
  obtain ⟨M, Q, hs⟩ := irrelevant_spec hr.wf (hr.acyclic hB) (E := Dict.keys ev) hWg
  have hclosed : ∀ v ∈ kept o.model.graph W ev, ∀ p ∈ B.parents v, p ∉ Dict.keys ev → p ∈ kept o.model.graph W ev :=
    fun v hv p hp hk => hs.keep v hv p ((hr.parents v (hr.nodes ▸ (List.mem_filter.1 hv).1) p).1 hp) hk
  have hden0 : ∀ a : V → S, (prunedBN B o.model.graph W ev).marg (Dict.keys ev) (asg ev) = veDen B o.model.graph W ev a := by
    intro a
    have := pruned_marg hr hB (T := W) (W := []) he (a := a) (by simp) hclosed
    simp only [List.nil_append] at this
    rw [veDen, ← this]
    exact v1.marg_dep _ _ _ fun v hv => over_agree (vs := []) (by simp) v (by simpa using hv)
  have hnum0 : ∀ a : V → S, (∀ t ∈ W, a t ∈ B.states t) →
      (prunedBN B o.model.graph W ev).marg (W ++ Dict.keys ev) (over ev a) = veNum B o.model.graph W ev a :=
    fun a ha => pruned_marg hr hB (T := W) (W := W) he ha hclosed
  have hstB : (prunedBN B o.model.graph W ev).states = B.states := rfl
  have hTk : ∀ t ∈ W, t ∈ (prunedBN B o.model.graph W ev).nodes := hs.target
  generalize prunedBN B o.model.graph W ev = B' at *
  set P := B'.marg (Dict.keys ev) (asg ev) with hP
  have hset : B'.marg (W ++ Dict.keys ev) = B'.marg (T ++ (C ++ Dict.keys ev)) := by
    refine BN.marg_congr_set fun v _ => ?_
    rw [List.mem_append, w2, List.mem_append, List.mem_append, List.mem_append, or_assoc]
  have hrep : Factor.Rep B.states p (fun a => B'.marg (T ++ (C ++ Dict.keys ev)) (over ev a) * P⁻¹) := by
    refine ⟨h3, h4, fun a ha => ?_⟩
    have hst : ∀ t ∈ W, a t ∈ B.states t := fun t ht => ha t ((h5 t).2 ht)
    have hde := hden0 a
    have hnu := hnum0 a hst
    rw [h7 a hst, ← hset, hnu, hde]
    by_cases hz : veDen B o.model.graph W ev a = 0
    · rw [hz, veNum_zero hr hB hnn hWn w1 hWd hst hz, Fl.zero_div_zero, zero_mul]
      rfl
    · rw [Fl.fin_div hz, div_eq_mul_inv]
      rfl
  have hTp : ∀ t ∈ T, t ∈ p.vars := fun t ht => (h5 t).2 ((w2 t).2 (List.mem_append_left _ ht))
  obtain ⟨g, g1, g2, g3, g4, g5⟩ := hrep.marginalize hI hTp hTn
  have hTE : ∀ t ∈ T, t ∉ Dict.keys ev := fun t ht => hdis t (List.mem_append_left _ ht)
  have hTB' : ∀ t ∈ T, t ∈ B'.nodes := fun t ht => hTk t ((w2 t).2 (List.mem_append_left _ ht))
  have hTCE : ∀ t ∈ T, t ∉ C ++ Dict.keys ev := by
    intro t ht hc
    rcases List.mem_append.1 hc with h | h
    · exact hTC t ht h
    · exact hTE t ht h
  have hsum : ∀ a, sumOver B.states T (fun a => B'.marg (T ++ (C ++ Dict.keys ev)) (over ev a) * P⁻¹) a =
      B'.marg (C ++ Dict.keys ev) (over ev a) * P⁻¹ := by
    intro a
    rw [sumOver_mul_right (vs := []) (g := fun _ => P⁻¹) (fun _ _ _ => rfl) (by simp),
      sumOver_over hTE, ← hstB, v1.sum_marg hTB' hTn hTCE]
  obtain ⟨r, r1, r2, r3, r4, r5⟩ := Factor.divideG_ok hI
    (fun x y => (storeOf .numpy : StoreImpl V S (Fl K)).divWrap Fl.nanToNum (x / y)) h3 g2.wf (hrep.compat g2)
  have hrd : r.dom = p.dom := by
    rw [r3, g3, domUnion]
    refine List.append_right_eq_self.2 ?_
    refine List.filter_eq_nil_iff.2 fun x hx => ?_
    have : x.1 ∈ Dict.keys p.dom := by
      have : x ∈ p.dom := by
        rw [domOut] at hx; exact (List.mem_filter.1 hx).1
      exact Dict.mem_keys_of_mem this
    simpa using this
  have hrv : ∀ v, v ∈ r.vars ↔ v ∈ T ∨ v ∈ C := by
    intro v
    rw [Factor.vars, hrd]
    exact (h5 v).trans ((w2 v).trans List.mem_append)
  refine ⟨m', B', r, hW ▸ h1, hm', v1, ?_, fun x hx => h4 x (hrd ▸ hx), hrv, ?_⟩
  · rw [VEObj.queryCond_ok o hW hTC hev w1 hWd (hq.names hr) h1]
    simp only [h2, py_ok_bind, g1]
    exact r1
  · intro obs ho
    have hin : InDom p.dom (asg obs) := hrd ▸ ho.inDom
    have hpv : ∀ v ∈ p.vars, (asg obs : V → S) v ∈ B.states v := Factor.states_of_inDom h4 hin
    rw [Factor.getValue_full hI r2 ho, r5 _ ho.inDom, hrep.sem _ hpv, g2.sem _ (fun v hv => hpv v ((g4 v).1 hv).1), hsum,
      asg_append]
    have hin' : ∀ v ∈ T ++ (C ++ Dict.keys ev), v ∈ B'.nodes → over ev (asg obs : V → S) v ∈ B'.states v := by
      intro v hv _
      rw [hstB]
      by_cases hk : v ∈ Dict.keys ev
      · obtain ⟨s, hs⟩ := Option.isSome_iff_exists.1 (Dict.get?_isSome.2 hk)
        rw [over_of_get? hs]; exact he.states v s hs
      · rw [over_of_not_mem hk]
        refine hpv v ((h5 v).2 ((w2 v).2 ?_))
        rw [← List.append_assoc] at hv
        exact (List.mem_append.1 hv).resolve_right hk
    refine ⟨?_, BN.marg_zero v1 vnn hTB' hTn hTCE hin'⟩
    by_cases hz : B'.marg (C ++ Dict.keys ev) (over ev (asg obs)) = 0
    · have hnum : B'.marg (T ++ (C ++ Dict.keys ev)) (over ev (asg obs)) = 0 :=
        BN.marg_zero v1 vnn hTB' hTn hTCE hin' hz
      rw [hz, hnum, zero_mul, Fl.zero_div_zero, div_zero]
      rfl
    · by_cases hp : P = 0
      · have hP' : B'.marg (Dict.keys ev) (over ev (asg obs)) = 0 := by
          rw [← hp, hP]
          exact v1.marg_dep _ _ _ fun v hv => over_agree (vs := []) (by simp) v (by simpa using hv)
        have hnum : B'.marg (T ++ (C ++ Dict.keys ev)) (over ev (asg obs)) = 0 := by
          rw [← hset]
          refine BN.marg_zero v1 vnn hTk w1 hWd (fun v hv hvn => hin' v ?_ hvn) hP'
          rw [← List.append_assoc]
          rcases List.mem_append.1 hv with h | h
          · exact List.mem_append_left _ ((w2 v).1 h)
          · exact List.mem_append_right _ h
        rw [hnum, hp, inv_zero, mul_zero, mul_zero, Fl.zero_div_zero, zero_div]
        rfl
      · have hpi : P⁻¹ ≠ 0 := inv_ne_zero hp
        rw [Fl.fin_div (mul_ne_zero hz hpi), mul_div_mul_right _ _ hpi]
        rfl

/-- **C39** exactly: the value at a joint state is the one of the property (`P(t, c, e) / P(c, e)`, and 0 where
`P(c, e) = 0`) if and only if `P(c, e)` is not zero or the pruned network gives the joint state probability zero. -/
theorem C39_exact {ch : Choices V} (hch : ch.Ok) (o : VEObj F (storeOf .numpy : StoreImpl V S (Fl K))) {B : BN V S K}
    (hr : Represents o.model B) (hB : B.Valid) (hn : B.Normalised) (hnn : B.NonNeg) {T C : List V} {ev : Obs V S}
    (hTn : T.Nodup) (hTC : ∀ t ∈ T, t ∉ C) (h0 : T ++ C ≠ []) (hT : ∀ t ∈ T ++ C, t ∈ B.nodes) (he : EvOk B ev)
    (hdis : ∀ t ∈ T ++ C, t ∉ Dict.keys ev) {e : Option (Obs V S)} (hev : e.getD [] = ev) :
    ∃ (m' : DagModel (Factor (storeOf .numpy : StoreImpl V S (Fl K))) V S) (B' : BN V S K) (r : _),
      minimalize o.model (ch.setOrd (T ++ C)) ev = .ok m' ∧ Represents m' B' ∧ B'.Valid ∧
      (o.queryCond ch T C e).2 = .ok r ∧ ∀ obs, FullObs r.dom obs →
        (r.getValue obs = .ok (.fin (B.marg (T ++ (C ++ Dict.keys ev)) (asg (ev ++ obs)) / B.marg (C ++ Dict.keys ev) (asg (ev ++ obs)))) ↔
          B.marg (C ++ Dict.keys ev) (asg (ev ++ obs)) ≠ 0 ∨ B'.marg (T ++ (C ++ Dict.keys ev)) (asg (ev ++ obs)) = 0) := by
  obtain ⟨m', B', r, h1, h2, h3, h4, h5, h6, h7⟩ := C39_pruned hch o hr hB hn hnn hTn hTC h0 hT he hdis hev
  refine ⟨m', B', r, h1, h2, h3, h4, fun obs ho => ?_⟩
  obtain ⟨k1, k2⟩ := h7 obs ho
  by_cases hz : B.marg (C ++ Dict.keys ev) (asg (ev ++ obs)) = 0
  · rw [k1, hz, div_zero]
    constructor
    · intro h
      injection h with h
      injection h with h
      rcases div_eq_zero_iff.1 h with h | h
      · exact .inr h
      · exact .inr (k2 h)
    · rintro (h | h)
      · exact absurd rfl h
      · rw [h, zero_div]
  · refine ⟨fun _ => .inl hz, fun _ => ?_⟩
    have hp : B.marg (Dict.keys ev) (asg ev) ≠ 0 := by
      intro hp
      have hd : B.marg (C.dedup ++ Dict.keys ev) = B.marg (C ++ Dict.keys ev) :=
        BN.marg_congr_set fun v _ => by simp only [List.mem_append, List.mem_dedup]
      rw [← hd] at hz
      refine hz (BN.marg_zero hB hnn (fun t ht => hT t (List.mem_append_right _ (List.mem_dedup.1 ht))) C.nodup_dedup
        (fun t ht => hdis t (List.mem_append_right _ (List.mem_dedup.1 ht))) ?_ ?_)
      · intro v hv _
        rw [asg_append]
        by_cases hk : v ∈ Dict.keys ev
        · obtain ⟨s, hs⟩ := Option.isSome_iff_exists.1 (Dict.get?_isSome.2 hk)
          rw [over_of_get? hs]; exact he.states v s hs
        · rw [over_of_not_mem hk]
          exact Factor.states_of_inDom h5 ho.inDom v ((h6 v).2 (.inr (List.mem_dedup.1 ((List.mem_append.1 hv).resolve_right hk))))
      · rw [← hp, asg_append]
        exact hB.marg_dep _ _ _ fun v hv => over_agree (vs := []) (by simp) v (by simpa using hv)
    obtain ⟨r', e1, _, _, _, _, _, e2⟩ := C39_conditional_partial hch o hr hB hn hnn hTn hTC h0 hT he hdis hev hp
    rw [h4] at e1
    injection e1 with e1
    subst e1
    exact e2 obs ho

/-- The second case: `P(A = a, B = b) = 0`, and the answer for `C` given `A` with evidence `B = b` is 0 at `A = a`. (The case
in which the answer is wrong is `C39_zero_evidence`.) -/
theorem C39_exact_example : (do
    let m ← netOf .numpy gEx rowsEx
    let r ← ((VEObj.new m : VEObj _ (IQ .numpy)).queryCond chEx ['C'] ['A'] (some [('B', 'b')])).2
    let x ← r.getValue [('C', 'e'), ('A', 'a')]
    let y ← r.getValue [('C', 'e'), ('A', 'b')]
    return (x, y)) = .ok (q 0, q (1/2)) := by decide +kernel

end Verif.Props
