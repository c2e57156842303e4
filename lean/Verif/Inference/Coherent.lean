import Verif.Props.Adjust
import Verif.Props.Operators
import Verif.Spec.Learning

/-!
# Posteriors of different queries: helper lemmas for C114

`Exactly X ask B` says that `ask T ev` is the posterior of the network `B`, for all targets outside `X`.
-/

set_option linter.unusedSectionVars false
set_option linter.unusedSimpArgs false

namespace Verif

variable {V S K : Type} [DecidableEq V] [DecidableEq S] [Inhabited S] [Field K] [LinearOrder K] {vt : VType}

/-- The states that `b` gives to the variables `U`, as a dictionary. -/
def statesOf (b : V → S) (U : List V) : Obs V S := U.map fun u => (u, b u)

@[simp] theorem keys_statesOf (b : V → S) (U : List V) : Dict.keys (statesOf b U) = U := by
  simp [statesOf, Dict.keys, Function.comp_def]

theorem get?_statesOf {b : V → S} {U : List V} {v : V} {s : S} (h : Dict.get? (statesOf b U) v = some s) : v ∈ U ∧ s = b v := by
  obtain ⟨u, h1, h2⟩ := List.mem_map.1 (Dict.mem_of_get? h)
  simp only [Prod.mk.injEq] at h2
  exact ⟨h2.1 ▸ h1, by rw [← h2.2, h2.1]⟩

theorem over_statesOf (ev : Obs V S) (b : V → S) (U : List V) : over (ev ++ statesOf b U) b = over ev b := by
  rw [over_append, over_self_of_agree fun v s h => (get?_statesOf h).2.symm]

namespace BN

/-- Summing out some of the targets. -/
theorem post_sum {B : BN V S K} (hB : B.Valid) {T U : List V} {ev : Obs V S} (hU : ∀ u ∈ U, u ∈ B.nodes) (hUn : U.Nodup)
    (hUT : ∀ u ∈ U, u ∉ T) (hUe : ∀ u ∈ U, u ∉ Dict.keys ev) (a : V → S) :
    sumOver B.states U (B.post (T ++ U) ev) a = B.post T ev a := by
  have e : B.post (T ++ U) ev = fun b => (fun c => B.marg (U ++ (T ++ Dict.keys ev)) c * (B.marg (Dict.keys ev) c)⁻¹) (over ev b) := by
    funext b
    rw [post, div_eq_mul_inv, marg_congr_set (vs := (T ++ U) ++ Dict.keys ev) (ws := U ++ (T ++ Dict.keys ev)) fun v _ => by
      simp only [List.mem_append]; tauto]
  have hd : ∀ u ∈ U, u ∉ T ++ Dict.keys ev := fun u hu hc => (List.mem_append.1 hc).elim (hUT u hu) (hUe u hu)
  have hdep : DependsOn (fun c => (B.marg (Dict.keys ev) c)⁻¹) (Dict.keys ev) := fun x y h => by
    show (B.marg _ x)⁻¹ = (B.marg _ y)⁻¹
    rw [hB.marg_dep _ x y h]
  rw [e, sumOver_over hUe (fun c => B.marg (U ++ (T ++ Dict.keys ev)) c * (B.marg (Dict.keys ev) c)⁻¹), sumOver_mul_right hdep hUe, hB.sum_marg hU hUn hd, ← div_eq_mul_inv, post]

/-- Observing some of the targets. -/
theorem post_chain {B : BN V S K} {T U : List V} {ev : Obs V S} {b : V → S} (hp : B.marg (U ++ Dict.keys ev) (over ev b) ≠ 0) :
    B.post (T ++ U) ev b = B.post T (ev ++ statesOf b U) b * B.post U ev b := by
  simp only [post, over_statesOf, Dict.keys_append, keys_statesOf]
  rw [marg_congr_set (vs := Dict.keys ev ++ U) (ws := U ++ Dict.keys ev) fun v _ => by simp only [List.mem_append]; tauto,
    marg_congr_set (vs := (T ++ U) ++ Dict.keys ev) (ws := T ++ (Dict.keys ev ++ U)) fun v _ => by simp only [List.mem_append]; tauto]
  rw [← mul_div_assoc, div_mul_cancel₀ _ hp]

end BN

namespace Props

local notation "II" => (storeOf vt : StoreImpl V S (Fl K))
local notation "LL" => (labelStoreOf vt : LabelStore V S)

def Exactly {I : StoreImpl V S (Fl K)} (X : List V) (ask : List V → Obs V S → Py (Factor I)) (B : BN V S K) : Prop :=
  ∀ T ev, GoodQuery B T ev → (∀ t ∈ T, t ∉ X) → B.marg (Dict.keys ev) (asg ev) ≠ 0 →
    ∃ r, ask T ev = .ok r ∧ Factor.Rep B.states r (B.post T ev) ∧ ∀ v, v ∈ r.vars ↔ v ∈ T

/-- What `C36` and `C42` say about the cells, as a function of the assignment. -/
theorem rep_of_quot {I : StoreImpl V S (Fl K)} (hI : I.Lawful) {B : BN V S K} (hB : B.Valid) {T : List V} {ev : Obs V S} {r : Factor I} (hw : r.WF)
    (hd : ∀ p ∈ r.dom, p.2 = B.states p.1) (hv : ∀ v, v ∈ r.vars ↔ v ∈ T)
    (h : ∀ obs, FullObs r.dom obs → r.getValue obs =
      .ok (.fin (B.marg (T ++ Dict.keys ev) (asg (ev ++ obs)) / B.marg (Dict.keys ev) (asg ev)))) :
    Factor.Rep B.states r (B.post T ev) := by
  refine FExpr.rep_of_reads hI hw hd fun obs a ha hc => ?_
  rw [h obs (fullObs_of_covers ha hc), BN.post]
  have e1 : B.marg (Dict.keys ev) (asg ev) = B.marg (Dict.keys ev) (over ev a) :=
    hB.marg_dep _ _ _ fun v hv => over_agree (vs := []) (by simp) v (by simpa using hv)
  have e2 : B.marg (T ++ Dict.keys ev) (asg (ev ++ obs)) = B.marg (T ++ Dict.keys ev) (over ev a) := by
    refine hB.marg_dep _ _ _ ?_
    rw [asg, over_append]
    refine over_agree fun v hvT => ?_
    exact over_of_get? (hc v ((hv v).2 hvT))
  rw [e1, e2]

theorem exactly_query {ch : Choices V} (hch : ch.Ok) {F : Type} [VEFactor F II] (o : VEObj F II) {B : BN V S K} (hr : Represents o.model B)
    (hB : B.Valid) (hn : B.Normalised) : Exactly [] (fun T ev => (o.query ch T (some ev)).2) B := by
  intro T ev hq _ hp
  obtain ⟨r, h1, h2, h3, h4, _, h6⟩ := C36_exact_posterior hch o hr hB hn hq (e := some ev) rfl hp
  exact ⟨r, h1, rep_of_quot (storeOf_lawful vt) hB h2 h3 h4 h6, h4⟩

theorem exactly_causal {ch : Choices V} (hch : ch.Ok) {m m' : SCM II LL} {B : BN V S K} (h : CausalOk m B) {d : Obs V S} (hd : EvOk B d)
    (hm : Causal.new m = .ok m') : Exactly (Dict.keys d) (fun T ev => Causal.causalQuery ch m' T d (some ev)) (B.doBN d) := by
  intro T ev hq hX hp
  have he : EvOk B ev := ⟨hq.evidence.nodup, hq.evidence.nodes, hq.evidence.states⟩
  rw [BN.doMarg_eq hd.nodes] at hp
  obtain ⟨m'', r, h0, h1, h2, h3, h4, _, h6⟩ := C42_interventional hch h hq.nonempty hq.nodup
    (fun t ht => ⟨hq.nodes t ht, hq.disjoint t ht, hX t ht⟩) hd he (e := some ev) rfl hp
  rw [hm] at h0
  cases h0
  refine ⟨r, h1, rep_of_quot (storeOf_lawful vt) (h.valid.doBN _) h2 h3 h4 fun obs ho => ?_, h4⟩
  rw [h6 obs ho, BN.doMarg_eq hd.nodes, BN.doMarg_eq hd.nodes]

theorem same_of_rep {I : StoreImpl V S (Fl K)} (hI : I.Lawful) {D : V → List S} {φ ψ : (V → S) → K} {r s : Factor I} {T : List V} (hr : Factor.Rep D r φ)
    (hs : Factor.Rep D s ψ) (hrv : ∀ v, v ∈ r.vars ↔ v ∈ T) (hsv : ∀ v, v ∈ s.vars ↔ v ∈ T) (h : ∀ a, (∀ v ∈ T, a v ∈ D v) → φ a = ψ a) : SameTable T r s := by
  refine ⟨hrv, hsv, fun obs ho => ⟨_, hr.getValue hI ho, ?_⟩⟩
  have ho' : FullObs s.dom obs := fun p hp => by
    obtain ⟨st, hst⟩ := Dict.mem_keys.1 ((hrv p.1).2 ((hsv p.1).1 (Dict.mem_keys_of_mem hp)))
    obtain ⟨x, hx, hx'⟩ := ho _ hst
    exact ⟨x, by rw [hs.dom p hp, ← hr.dom _ hst]; exact hx, hx'⟩
  rw [hs.getValue hI ho', h _ fun v hv => Factor.states_of_inDom hr.dom ho.inDom v ((hrv v).2 hv)]

variable {I : StoreImpl V S (Fl K)} {B : BN V S K} {X T U : List V} {ev : Obs V S} {ask : List V → Obs V S → Py (Factor I)}

theorem GoodQuery.left (hq : GoodQuery B (T ++ U) ev) (hT : T ≠ []) : GoodQuery B T ev :=
  ⟨hT, (List.nodup_append'.1 hq.nodup).1, fun t ht => hq.nodes t (List.mem_append_left _ ht), hq.evidence, fun t ht => hq.disjoint t (List.mem_append_left _ ht)⟩

theorem GoodQuery.right (hq : GoodQuery B (T ++ U) ev) (hU : U ≠ []) : GoodQuery B U ev :=
  ⟨hU, (List.nodup_append'.1 hq.nodup).2.1, fun t ht => hq.nodes t (List.mem_append_right _ ht), hq.evidence, fun t ht => hq.disjoint t (List.mem_append_right _ ht)⟩

theorem GoodQuery.observe (hq : GoodQuery B (T ++ U) ev) (hT : T ≠ []) {b : V → S} (hb : ∀ u ∈ U, b u ∈ B.states u) :
    GoodQuery B T (ev ++ statesOf b U) := by
  have hn := List.nodup_append'.1 hq.nodup
  refine ⟨hT, hn.1, fun t ht => hq.nodes t (List.mem_append_left _ ht), ⟨?_, ?_, ?_⟩, ?_⟩
  · rw [Dict.keys_append, keys_statesOf]
    exact List.nodup_append'.2 ⟨hq.evidence.nodup, hn.2.1, fun v hv hu => hq.disjoint v (List.mem_append_right _ hu) hv⟩
  · intro v hv
    rw [Dict.keys_append, keys_statesOf] at hv
    exact (List.mem_append.1 hv).elim (hq.evidence.nodes v) fun hu => hq.nodes v (List.mem_append_right _ hu)
  · intro v s hs
    rw [Dict.get?_append] at hs
    cases h : Dict.get? ev v with
    | some x => rw [h] at hs; cases hs; exact hq.evidence.states v _ h
    | none =>
      rw [h] at hs
      obtain ⟨h1, h2⟩ := get?_statesOf (by simpa using hs : Dict.get? (statesOf b U) v = some s)
      exact h2 ▸ hb v h1
  · intro t ht hc
    rw [Dict.keys_append, keys_statesOf] at hc
    exact (List.mem_append.1 hc).elim (hq.disjoint t (List.mem_append_left _ ht)) fun hu => hn.2.2 ht hu

/-- Summing out targets of an answer gives the answer for the others. -/
theorem Exactly.marginal (h : Exactly X ask B) (hI : I.Lawful) (hB : B.Valid) (hq : GoodQuery B (T ++ U) ev) (hX : ∀ t ∈ T ++ U, t ∉ X) (hT : T ≠ [])
    (hp : B.marg (Dict.keys ev) (asg ev) ≠ 0) :
    ∃ r s t, ask (T ++ U) ev = .ok r ∧ r.marginalize U = .ok s ∧ ask T ev = .ok t ∧ SameTable T s t := by
  obtain ⟨r, r1, r2, r3⟩ := h _ _ hq hX hp
  obtain ⟨t, t1, t2, t3⟩ := h _ _ (hq.left hT) (fun t ht => hX t (List.mem_append_left _ ht)) hp
  have hn := List.nodup_append'.1 hq.nodup
  obtain ⟨s, s1, s2, _, s4, _⟩ := r2.marginalize hI (xs := U) (fun u hu => (r3 u).2 (List.mem_append_right _ hu)) hn.2.1
  refine ⟨r, s, t, r1, s1, t1, same_of_rep hI s2 t2 (fun v => ?_) t3 fun a _ => ?_⟩
  · rw [s4 v, r3 v, List.mem_append]
    exact ⟨fun hv => hv.1.resolve_right hv.2, fun hv => ⟨.inl hv, fun hu => hn.2.2 hv hu⟩⟩
  · exact BN.post_sum hB (fun u hu => hq.nodes u (List.mem_append_right _ hu)) hn.2.1 (fun u hu ht => hn.2.2 ht hu)
      (fun u hu => hq.disjoint u (List.mem_append_right _ hu)) a

/-- The answer for all targets is the answer for some of them times the answer for the others when these are observed. -/
theorem Exactly.chain (h : Exactly X ask B) (hI : I.Lawful) (hB : B.Valid) (hq : GoodQuery B (T ++ U) ev) (hX : ∀ t ∈ T ++ U, t ∉ X) (hT : T ≠ []) (hU : U ≠ [])
    (hp : B.marg (Dict.keys ev) (asg ev) ≠ 0) :
    ∃ r u, ask (T ++ U) ev = .ok r ∧ ask U ev = .ok u ∧ ∀ obs, FullObs r.dom obs → ∃ y, u.getValue obs = .ok (.fin y) ∧
      (y ≠ 0 → ∃ t x, ask T (ev ++ statesOf (asg obs) U) = .ok t ∧ t.getValue obs = .ok (.fin x) ∧ r.getValue obs = .ok (.fin (x * y))) := by
  obtain ⟨r, r1, r2, r3⟩ := h _ _ hq hX hp
  obtain ⟨u, u1, u2, u3⟩ := h _ _ (hq.right hU) (fun t ht => hX t (List.mem_append_right _ ht)) hp
  refine ⟨r, u, r1, u1, fun obs ho => ?_⟩
  have hst := fullObs_states r2.dom r3 ho
  have hin : ∀ t ∈ T ++ U, (asg obs : V → S) t ∈ B.states t := fun t ht => by
    obtain ⟨s, h1, h2⟩ := hst t ht
    rw [asg, over_of_get? h2]; exact h1
  refine ⟨_, u2.getValue hI (fullObs_of_states u2.dom u3 fun t ht => hst t (List.mem_append_right _ ht)), fun hy => ?_⟩
  have hm : B.marg (U ++ Dict.keys ev) (over ev (asg obs)) ≠ 0 := fun hc => hy (by rw [BN.post, hc, zero_div])
  have hqo := hq.observe hT (b := asg obs) fun w hw => hin w (List.mem_append_right _ hw)
  obtain ⟨t, t1, t2, t3⟩ := h T (ev ++ statesOf (asg obs) U) hqo (fun t ht => hX t (List.mem_append_left _ ht)) (by
    rw [Dict.keys_append, keys_statesOf, BN.marg_congr_set (vs := Dict.keys ev ++ U) (ws := U ++ Dict.keys ev) fun v _ => by simp only [List.mem_append]; tauto]
    rw [hB.marg_dep _ _ (over ev (asg obs)) fun v hv => ?_]
    · exact hm
    · rw [← over_statesOf ev (asg obs) U]
      refine over_agree (vs := []) (by simp) v ?_
      rw [List.nil_append, Dict.keys_append, keys_statesOf]
      exact List.mem_append.2 ((List.mem_append.1 hv).symm))
  refine ⟨t, _, t1, t2.getValue hI (fullObs_of_states t2.dom t3 fun t ht => hst t (List.mem_append_left _ ht)), ?_⟩
  rw [r2.getValue hI ho, BN.post_chain hm]

/-- The order in which targets and observations are given does not matter. -/
theorem Exactly.order (h : Exactly X ask B) (hI : I.Lawful) (hq : GoodQuery B T ev) (hX : ∀ t ∈ T, t ∉ X) {T' : List V} {ev' : Obs V S} (hT : T.Perm T') (he : ev.Perm ev')
    (hp : B.marg (Dict.keys ev) (asg ev) ≠ 0) : ∃ r s, ask T ev = .ok r ∧ ask T' ev' = .ok s ∧ SameTable T r s := by
  have hkp : (Dict.keys ev).Perm (Dict.keys ev') := he.map _
  have hkn : (Dict.keys ev').Nodup := hkp.nodup_iff.1 hq.evidence.nodup
  have hget : ∀ v, Dict.get? ev v = Dict.get? ev' v := fun v => by
    cases hv : Dict.get? ev v with
    | some s => exact (Dict.get?_of_mem hkn (he.mem_iff.1 (Dict.mem_of_get? hv))).symm
    | none => exact (Dict.get?_eq_none.2 fun hc => Dict.get?_eq_none.1 hv (hkp.mem_iff.2 hc)).symm
  have hover : (over ev : (V → S) → V → S) = over ev' := by
    funext a v
    simp only [over, hget]
  have hset : ∀ W : List V, (∀ v, v ∈ W ↔ v ∈ Dict.keys ev) → B.marg W = B.marg (Dict.keys ev') := fun W hW =>
    BN.marg_congr_set fun v _ => by rw [hW v, hkp.mem_iff]
  have hq' : GoodQuery B T' ev' := ⟨fun hc => hq.nonempty (by rw [hc] at hT; exact hT.eq_nil), hT.nodup_iff.1 hq.nodup, fun t ht => hq.nodes t (hT.mem_iff.2 ht),
    ⟨hkn, fun v hv => hq.evidence.nodes v (hkp.mem_iff.2 hv), fun v s hs => hq.evidence.states v s (by rw [hget]; exact hs)⟩,
    fun t ht hc => hq.disjoint t (hT.mem_iff.2 ht) (hkp.mem_iff.2 hc)⟩
  obtain ⟨r, r1, r2, r3⟩ := h _ _ hq hX hp
  obtain ⟨s, s1, s2, s3⟩ := h _ _ hq' (fun t ht => hX t (hT.mem_iff.2 ht)) (by
    rw [← hset _ fun v => Iff.rfl, asg, ← hover]; exact hp)
  refine ⟨r, s, r1, s1, same_of_rep hI r2 s2 r3 (fun v => by rw [s3 v, hT.mem_iff]) fun a _ => ?_⟩
  rw [BN.post, BN.post, hover, hset _ fun v => Iff.rfl,
    BN.marg_congr_set (vs := T ++ Dict.keys ev) (ws := T' ++ Dict.keys ev') fun v _ => by simp only [List.mem_append, hT.mem_iff, hkp.mem_iff]]

/-- The answer of a conditional query, as a function of the assignment. -/
theorem cond_exactly {ch : Choices V} (hch : ch.Ok) {F : Type} [VEFactor F II] (o : VEObj F II) (hr : Represents o.model B)
    (hB : B.Valid) (hn : B.Normalised) (hq : GoodQuery B (T ++ U) ev) (hp : B.marg (Dict.keys ev) (asg ev) ≠ 0) :
    ∃ r, (o.queryCond ch T U (some ev)).2 = .ok r ∧ r.WF ∧ (∀ p ∈ r.dom, p.2 = B.states p.1) ∧ (∀ v, v ∈ r.vars ↔ v ∈ T ++ U) ∧
      ∀ obs, FullObs r.dom obs → B.marg (U ++ Dict.keys ev) (over ev (asg obs)) ≠ 0 →
        r.getValue obs = .ok (.fin (B.post T (ev ++ statesOf (asg obs) U) (asg obs))) := by
  have hnd := List.nodup_append'.1 hq.nodup
  obtain ⟨r, r1, r2, r3, r4, _, _, r7⟩ := C39_conditional_any_store hch o hr hB hn (T := T) (C := U) hnd.1 (fun t ht hu => hnd.2.2 ht hu)
    hq.nonempty hq.nodes hq.evidence hq.disjoint (e := some ev) rfl hp
  refine ⟨r, r1, r2, r3, fun v => by rw [r4 v, List.mem_append], fun obs ho hm => ?_⟩
  have e : (asg (ev ++ obs) : V → S) = over ev (asg obs) := by rw [asg, over_append]; rfl
  rw [r7 obs ho (by rw [e]; exact hm), e, BN.post, over_statesOf, Dict.keys_append, keys_statesOf,
    BN.marg_congr_set (vs := Dict.keys ev ++ U) (ws := U ++ Dict.keys ev) fun v _ => by simp only [List.mem_append]; tauto,
    BN.marg_congr_set (vs := T ++ (Dict.keys ev ++ U)) (ws := T ++ (U ++ Dict.keys ev)) fun v _ => by simp only [List.mem_append]; tauto]

/-- The same when the conditions are possible. -/
theorem cond_exactly_rep {ch : Choices V} (hch : ch.Ok) {F : Type} [VEFactor F II] (o : VEObj F II) (hr : Represents o.model B)
    (hB : B.Valid) (hn : B.Normalised) (hq : GoodQuery B (T ++ U) ev) (hp : B.marg (Dict.keys ev) (asg ev) ≠ 0)
    (hpos : ∀ a, (∀ u ∈ U, a u ∈ B.states u) → B.marg (U ++ Dict.keys ev) (over ev a) ≠ 0) :
    ∃ r, (o.queryCond ch T U (some ev)).2 = .ok r ∧ Factor.Rep B.states r (fun a => B.post (T ++ U) ev a / B.post U ev a) ∧ ∀ v, v ∈ r.vars ↔ v ∈ T ++ U := by
  have hI := storeOf_lawful (V := V) (S := S) (α := Fl K) vt
  obtain ⟨r, r1, r2, r3, r4, r5⟩ := cond_exactly hch o hr hB hn hq hp
  refine ⟨r, r1, FExpr.rep_of_reads hI r2 r3 fun obs a ha hc => ?_, r4⟩
  have hs : ∀ v ∈ r.vars, a v ∈ B.states v := Factor.states_of_inDom r3 ha
  have hag : ∀ v ∈ T ++ U, (asg obs : V → S) v = a v := fun v hv => by rw [asg, over_of_get? (hc v ((r4 v).2 hv))]
  have hm : B.marg (U ++ Dict.keys ev) (over ev a) = B.marg (U ++ Dict.keys ev) (over ev (asg obs)) :=
    hB.marg_dep _ _ _ (over_agree fun v hv => (hag v (List.mem_append_right _ hv)).symm)
  have hne := hpos a fun u hu => hs u ((r4 u).2 (List.mem_append_right _ hu))
  have hE : B.marg (Dict.keys ev) (over ev a) = B.marg (Dict.keys ev) (over ev (asg obs)) :=
    hB.marg_dep _ _ _ fun v hv => over_agree (vs := []) (by simp) v (by simpa using hv)
  have hE0 : B.marg (Dict.keys ev) (over ev (asg obs)) ≠ 0 := by
    rw [hB.marg_dep _ _ (asg ev) fun v hv => over_agree (vs := []) (by simp) v (by simpa using hv)]; exact hp
  have hTU : B.marg ((T ++ U) ++ Dict.keys ev) (over ev a) = B.marg ((T ++ U) ++ Dict.keys ev) (over ev (asg obs)) :=
    hB.marg_dep _ _ _ (over_agree fun v hv => (hag v hv).symm)
  have hpa : B.post (T ++ U) ev a = B.post (T ++ U) ev (asg obs) := by rw [BN.post, BN.post, hTU, hE]
  have hpb : B.post U ev a = B.post U ev (asg obs) := by rw [BN.post, BN.post, hm, hE]
  rw [hm] at hne
  rw [r5 obs (fullObs_of_covers ha hc) hne, hpa, hpb, BN.post_chain hne, mul_div_assoc, div_self, mul_one]
  rw [BN.post]
  exact div_ne_zero hne hE0

end Props
end Verif
