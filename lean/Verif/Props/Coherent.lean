import Verif.Inference.Coherent
import Verif.Props.CausalEx

/-!
# Answers to different queries fit together (C114)

The statements compare answers of the code with each other: no network semantics appears in the conclusions.  `SameTable T r s`
says that two factors are over the variables `T` and have the same cells, all of them numbers; `statesOf a U` is the dictionary
that gives the variables `U` their states in `a`.
-/

set_option linter.unusedSectionVars false
set_option linter.unusedSimpArgs false

namespace Verif
namespace Props
open Causal

variable {V S K : Type} [DecidableEq V] [DecidableEq S] [Inhabited S] [Field K] [LinearOrder K] {vt : VType}

local notation "II" => (storeOf vt : StoreImpl V S (Fl K))
local notation "LL" => (labelStoreOf vt : LabelStore V S)

variable {F : Type} [VEFactor F (storeOf vt : StoreImpl V S (Fl K))] {B : BN V S K} {T U : List V} {ev : Obs V S}

/-- **C114** `query(T + U) ** U` is `query(T)`, for every evidence of non-zero probability. -/
theorem C114_marginal {ch : Choices V} (hch : ch.Ok) (o : VEObj F II) (hr : Represents o.model B) (hB : B.Valid) (hn : B.Normalised)
    (hq : GoodQuery B (T ++ U) ev) (hT : T ≠ []) (hp : B.marg (Dict.keys ev) (asg ev) ≠ 0) :
    ∃ r s t, (o.query ch (T ++ U) (some ev)).2 = .ok r ∧ r.marginalize U = .ok s ∧ (o.query ch T (some ev)).2 = .ok t ∧ SameTable T s t :=
  (exactly_query hch o hr hB hn).marginal (storeOf_lawful vt) hB hq (by simp) hT hp

/-- **C114** the answer for `T + U` at `obs` is the answer for `U` times the answer for `T` when the states of `U` are added to the evidence. -/
theorem C114_chain {ch : Choices V} (hch : ch.Ok) (o : VEObj F II) (hr : Represents o.model B) (hB : B.Valid) (hn : B.Normalised)
    (hq : GoodQuery B (T ++ U) ev) (hT : T ≠ []) (hU : U ≠ []) (hp : B.marg (Dict.keys ev) (asg ev) ≠ 0) :
    ∃ r u, (o.query ch (T ++ U) (some ev)).2 = .ok r ∧ (o.query ch U (some ev)).2 = .ok u ∧ ∀ obs, FullObs r.dom obs →
      ∃ y, u.getValue obs = .ok (.fin y) ∧ (y ≠ 0 → ∃ t x, (o.query ch T (some (ev ++ statesOf (asg obs) U))).2 = .ok t ∧
        t.getValue obs = .ok (.fin x) ∧ r.getValue obs = .ok (.fin (x * y))) :=
  (exactly_query hch o hr hB hn).chain (storeOf_lawful vt) hB hq (by simp) hT hU hp

/-- **C114** where the states of `U` are impossible, the answer for `T + U` is zero. -/
theorem C114_zero [IsStrictOrderedRing K] {ch : Choices V} (hch : ch.Ok) (o : VEObj F II) (hr : Represents o.model B) (hB : B.Valid) (hn : B.Normalised) (hnn : B.NonNeg)
    (hq : GoodQuery B (T ++ U) ev) (hU : U ≠ []) (hp : B.marg (Dict.keys ev) (asg ev) ≠ 0) :
    ∃ r u, (o.query ch (T ++ U) (some ev)).2 = .ok r ∧ (o.query ch U (some ev)).2 = .ok u ∧ ∀ obs, FullObs r.dom obs →
      u.getValue obs = .ok (.fin 0) → r.getValue obs = .ok (.fin 0) := by
  have hI := storeOf_lawful (V := V) (S := S) (α := Fl K) vt
  have hE := exactly_query hch o hr hB hn
  obtain ⟨r, r1, r2, r3⟩ := hE _ _ hq (by simp) hp
  obtain ⟨u, u1, u2, u3⟩ := hE _ _ (hq.right hU) (by simp) hp
  refine ⟨r, u, r1, u1, fun obs ho hu => ?_⟩
  have hst := fullObs_states r2.dom r3 ho
  have hnd := List.nodup_append'.1 hq.nodup
  rw [u2.getValue hI (fullObs_of_states u2.dom u3 fun t ht => hst t (List.mem_append_right _ ht))] at hu
  simp only [Except.ok.injEq, Fl.fin.injEq, BN.post] at hu
  have hE0 : B.marg (Dict.keys ev) (over ev (asg obs)) ≠ 0 := by
    rw [hB.marg_dep _ _ (asg ev) fun v hv => over_agree (vs := []) (by simp) v (by simpa using hv)]; exact hp
  have h0 : B.marg (U ++ Dict.keys ev) (over ev (asg obs)) = 0 := (div_eq_zero_iff.1 hu).resolve_right hE0
  have hin : ∀ v ∈ (T ++ U) ++ Dict.keys ev, over ev (asg obs) v ∈ B.states v := by
    intro v hv
    by_cases hk : v ∈ Dict.keys ev
    · obtain ⟨s, hs⟩ := Option.isSome_iff_exists.1 (Dict.get?_isSome.2 hk)
      rw [over_of_get? hs]; exact hq.evidence.states v s hs
    · obtain ⟨s, h1, h2⟩ := hst v ((List.mem_append.1 hv).resolve_right hk)
      rw [over_of_not_mem hk, asg, over_of_get? h2]; exact h1
  have hz := BN.marg_zero hB hnn (T := T) (W := U ++ Dict.keys ev) (a := over ev (asg obs)) (fun t ht => hq.nodes t (List.mem_append_left _ ht)) hnd.1
    (fun t ht hc => (List.mem_append.1 hc).elim (fun hu => hnd.2.2 ht hu) (hq.disjoint t (List.mem_append_left _ ht)))
    (by rw [← List.append_assoc]; exact fun v hv _ => hin v hv) h0
  rw [r2.getValue hI ho, BN.post, List.append_assoc, hz, zero_div]

/-- **C114** neither the order of the targets nor that of the observations changes the answer. -/
theorem C114_order {ch : Choices V} (hch : ch.Ok) (o : VEObj F II) (hr : Represents o.model B) (hB : B.Valid) (hn : B.Normalised)
    (hq : GoodQuery B T ev) {T' : List V} {ev' : Obs V S} (hT : T.Perm T') (he : ev.Perm ev') (hp : B.marg (Dict.keys ev) (asg ev) ≠ 0) :
    ∃ r s, (o.query ch T (some ev)).2 = .ok r ∧ (o.query ch T' (some ev')).2 = .ok s ∧ SameTable T r s :=
  (exactly_query hch o hr hB hn).order (storeOf_lawful vt) hq (by simp) hT he hp

/-- **C114** `query(T, conditioning=U)` at `obs` is `query(T)` with the states of `U` added to the evidence, where these are possible. -/
theorem C114_condition {ch : Choices V} (hch : ch.Ok) (o : VEObj F II) (hr : Represents o.model B) (hB : B.Valid) (hn : B.Normalised)
    (hq : GoodQuery B (T ++ U) ev) (hT : T ≠ []) (hU : U ≠ []) (hp : B.marg (Dict.keys ev) (asg ev) ≠ 0) :
    ∃ c u, (o.queryCond ch T U (some ev)).2 = .ok c ∧ (o.query ch U (some ev)).2 = .ok u ∧ ∀ obs, FullObs c.dom obs → u.getValue obs ≠ .ok (.fin 0) →
      ∃ t x, (o.query ch T (some (ev ++ statesOf (asg obs) U))).2 = .ok t ∧ t.getValue obs = .ok (.fin x) ∧ c.getValue obs = .ok (.fin x) := by
  have hI := storeOf_lawful (V := V) (S := S) (α := Fl K) vt
  obtain ⟨c, c1, _, c3, c4, c5⟩ := cond_exactly hch o hr hB hn hq hp
  obtain ⟨u, u1, u2, u3⟩ := exactly_query hch o hr hB hn _ _ (hq.right hU) (by simp) hp
  refine ⟨c, u, c1, u1, fun obs ho hu => ?_⟩
  have hst := fullObs_states c3 c4 ho
  rw [u2.getValue hI (fullObs_of_states u2.dom u3 fun t ht => hst t (List.mem_append_right _ ht))] at hu
  have hm : B.marg (U ++ Dict.keys ev) (over ev (asg obs)) ≠ 0 := fun hc => hu (by rw [BN.post, hc, zero_div])
  have hin : ∀ t ∈ U, (asg obs : V → S) t ∈ B.states t := fun t ht => by
    obtain ⟨s, h1, h2⟩ := hst t (List.mem_append_right _ ht)
    rw [asg, over_of_get? h2]; exact h1
  obtain ⟨t, t1, t2, t3⟩ := exactly_query hch o hr hB hn _ _ (hq.observe hT hin) (by simp) (by
    rw [Dict.keys_append, keys_statesOf, BN.marg_congr_set (vs := Dict.keys ev ++ U) (ws := U ++ Dict.keys ev) fun v _ => by simp only [List.mem_append]; tauto]
    rw [hB.marg_dep _ _ (over ev (asg obs)) fun v hv => ?_]
    · exact hm
    · rw [← over_statesOf ev (asg obs) U]
      refine over_agree (vs := []) (by simp) v ?_
      rw [List.nil_append, Dict.keys_append, keys_statesOf]
      exact List.mem_append.2 ((List.mem_append.1 hv).symm))
  exact ⟨t, _, t1, t2.getValue hI (fullObs_of_states t2.dom t3 fun t ht => hst t (List.mem_append_left _ ht)), c5 obs ho hm⟩

/-- The answer for `U` is nowhere zero. -/
theorem pos_of_pos (hB : B.Valid) {u : Factor II} (hu : Factor.Rep B.states u (B.post U ev)) (huv : ∀ v, v ∈ u.vars ↔ v ∈ U) (hUn : U.Nodup)
    (hpos : ∀ obs, FullObs u.dom obs → u.getValue obs ≠ .ok (.fin 0)) (a : V → S) (ha : ∀ v ∈ U, a v ∈ B.states v) :
    B.post U ev a ≠ 0 ∧ B.marg (U ++ Dict.keys ev) (over ev a) ≠ 0 := by
  have hI := storeOf_lawful (V := V) (S := S) (α := Fl K) vt
  have hg : ∀ v ∈ U, Dict.get? (statesOf a U) v = some (a v) := fun v hv =>
    Dict.get?_of_mem (by rw [keys_statesOf]; exact hUn) (List.mem_map.2 ⟨v, hv, rfl⟩)
  have ho : FullObs u.dom (statesOf a U) := fullObs_of_states hu.dom huv fun v hv => ⟨a v, ha v hv, hg v hv⟩
  have := hpos _ ho
  rw [hu.getValue hI ho] at this
  have e : ∀ v ∈ U, (asg (statesOf a U) : V → S) v = a v := fun v hv => by rw [asg, over_of_get? (hg v hv)]
  have e1 : B.marg (U ++ Dict.keys ev) (over ev (asg (statesOf a U))) = B.marg (U ++ Dict.keys ev) (over ev a) := hB.marg_dep _ _ _ (over_agree e)
  have e2 : B.marg (Dict.keys ev) (over ev (asg (statesOf a U))) = B.marg (Dict.keys ev) (over ev a) :=
    hB.marg_dep _ _ _ fun v hv => over_agree (vs := []) (by simp) v (by simpa using hv)
  rw [BN.post, e1, e2, ← BN.post] at this
  have h0 : B.post U ev a ≠ 0 := fun hc => this (by rw [hc])
  exact ⟨h0, fun hc => h0 (by rw [BN.post, hc, zero_div])⟩

/-- **C114** `query(T, conditioning=U) * query(U)` is `query(T + U)` and `(query(T, conditioning=U) * query(U)) ** U` is `query(T)`, when the
answer for `U` is nowhere zero. -/
theorem C114_total {ch : Choices V} (hch : ch.Ok) (o : VEObj F II) (hr : Represents o.model B) (hB : B.Valid) (hn : B.Normalised)
    (hq : GoodQuery B (T ++ U) ev) (hT : T ≠ []) (hU : U ≠ []) (hp : B.marg (Dict.keys ev) (asg ev) ≠ 0)
    (hpos : ∀ u, (o.query ch U (some ev)).2 = .ok u → ∀ obs, FullObs u.dom obs → u.getValue obs ≠ .ok (.fin 0)) :
    ∃ c u p s r t, (o.queryCond ch T U (some ev)).2 = .ok c ∧ (o.query ch U (some ev)).2 = .ok u ∧ c.multiply u = .ok p ∧ p.marginalize U = .ok s ∧
      (o.query ch (T ++ U) (some ev)).2 = .ok r ∧ (o.query ch T (some ev)).2 = .ok t ∧ SameTable (T ++ U) p r ∧ SameTable T s t := by
  have hI := storeOf_lawful (V := V) (S := S) (α := Fl K) vt
  have hE := exactly_query hch o hr hB hn
  have hnd := List.nodup_append'.1 hq.nodup
  obtain ⟨u, u1, u2, u3⟩ := hE _ _ (hq.right hU) (by simp) hp
  have hps := pos_of_pos hB u2 u3 hnd.2.1 (hpos u u1)
  obtain ⟨c, c1, c2, c3⟩ := cond_exactly_rep hch o hr hB hn hq hp fun a ha => (hps a ha).2
  obtain ⟨r, r1, r2, r3⟩ := hE _ _ hq (by simp) hp
  obtain ⟨t, t1, t2, t3⟩ := hE _ _ (hq.left hT) (by simp) hp
  obtain ⟨p, p1, p2, p3, _⟩ := c2.mul hI u2
  have hpv : ∀ v, v ∈ p.vars ↔ v ∈ T ++ U := fun v => by
    rw [p3 v, c3 v, u3 v, List.mem_append]; tauto
  have p4 : Factor.Rep B.states p (B.post (T ++ U) ev) := p2.congr fun a ha =>
    div_mul_cancel₀ _ (hps a fun v hv => ha v ((hpv v).2 (List.mem_append_right _ hv))).1
  obtain ⟨s, s1, s2, _, s4, _⟩ := p4.marginalize hI (xs := U) (fun w hw => (hpv w).2 (List.mem_append_right _ hw)) hnd.2.1
  refine ⟨c, u, p, s, r, t, c1, u1, p1, s1, r1, t1, same_of_rep hI p4 r2 hpv r3 fun _ _ => rfl, same_of_rep hI s2 t2 (fun v => ?_) t3 fun a _ => ?_⟩
  · rw [s4 v, hpv v, List.mem_append]
    exact ⟨fun hv => hv.1.resolve_right hv.2, fun hv => ⟨.inl hv, fun hu => hnd.2.2 hv hu⟩⟩
  · exact BN.post_sum hB (fun w hw => hq.nodes w (List.mem_append_right _ hw)) hnd.2.1 (fun w hw ht => hnd.2.2 ht hw)
      (fun w hw => hq.disjoint w (List.mem_append_right _ hw)) a

/-- **C114** `query(T, conditioning=U) * query(U) / query(T)` is `query(U, conditioning=T)`, when the answers for `T` and for `U` are nowhere zero. -/
theorem C114_bayes {ch : Choices V} (hch : ch.Ok) (o : VEObj F II) (hr : Represents o.model B) (hB : B.Valid) (hn : B.Normalised)
    (hq : GoodQuery B (T ++ U) ev) (hT : T ≠ []) (hU : U ≠ []) (hp : B.marg (Dict.keys ev) (asg ev) ≠ 0)
    (hpU : ∀ u, (o.query ch U (some ev)).2 = .ok u → ∀ obs, FullObs u.dom obs → u.getValue obs ≠ .ok (.fin 0))
    (hpT : ∀ t, (o.query ch T (some ev)).2 = .ok t → ∀ obs, FullObs t.dom obs → t.getValue obs ≠ .ok (.fin 0)) :
    ∃ c u p t s d, (o.queryCond ch T U (some ev)).2 = .ok c ∧ (o.query ch U (some ev)).2 = .ok u ∧ c.multiply u = .ok p ∧
      (o.query ch T (some ev)).2 = .ok t ∧ p.divide t = .ok s ∧ (o.queryCond ch U T (some ev)).2 = .ok d ∧ SameTable (T ++ U) s d := by
  have hI := storeOf_lawful (V := V) (S := S) (α := Fl K) vt
  have hE := exactly_query hch o hr hB hn
  have hnd := List.nodup_append'.1 hq.nodup
  have hq' : GoodQuery B (U ++ T) ev := ⟨by simp [hT], List.perm_append_comm.nodup_iff.1 hq.nodup, fun t ht => hq.nodes t (by
    rw [List.mem_append] at ht ⊢; exact ht.symm), hq.evidence, fun t ht => hq.disjoint t (by rw [List.mem_append] at ht ⊢; exact ht.symm)⟩
  obtain ⟨u, u1, u2, u3⟩ := hE _ _ (hq.right hU) (by simp) hp
  obtain ⟨t, t1, t2, t3⟩ := hE _ _ (hq.left hT) (by simp) hp
  have hpu := pos_of_pos hB u2 u3 hnd.2.1 (hpU u u1)
  have hpt := pos_of_pos hB t2 t3 hnd.1 (hpT t t1)
  obtain ⟨c, c1, c2, c3⟩ := cond_exactly_rep hch o hr hB hn hq hp fun a ha => (hpu a ha).2
  obtain ⟨d, d1, d2, d3⟩ := cond_exactly_rep hch o hr hB hn hq' hp fun a ha => (hpt a ha).2
  obtain ⟨p, p1, p2, p3, _⟩ := c2.mul hI u2
  obtain ⟨s, s1, s2, s3, _⟩ := FExpr.apply_rep hI .div p2 t2 fun _ a ha => (hpt a fun v hv => ha v ((t3 v).2 hv)).1
  refine ⟨c, u, p, t, s, d, c1, u1, p1, t1, s1, d1, same_of_rep hI s2 d2 (fun v => ?_) (fun v => by rw [d3 v]; simp only [List.mem_append]; tauto) fun a ha => ?_⟩
  · rw [s3]
    simp only [List.mem_append, List.mem_filter, p3 v, c3 v, u3 v, t3 v, decide_eq_true_eq]
    tauto
  · show B.post (T ++ U) ev a / B.post U ev a * B.post U ev a / B.post T ev a = B.post (U ++ T) ev a / B.post T ev a
    rw [div_mul_cancel₀ _ (hpu a fun v hv => ha v (List.mem_append_right _ hv)).1]
    simp only [BN.post]
    rw [BN.marg_congr_set (vs := (U ++ T) ++ Dict.keys ev) (ws := (T ++ U) ++ Dict.keys ev) fun v _ => by simp only [List.mem_append]; tauto]

/-- **C114** the same for queries with imposed states: summing out targets. -/
theorem C114_do_marginal {ch : Choices V} (hch : ch.Ok) {m m' : SCM II LL} (h : CausalOk m B) {d : Obs V S} (hd : EvOk B d) (hm : new m = .ok m')
    (hq : GoodQuery B (T ++ U) ev) (hX : ∀ t ∈ T ++ U, t ∉ Dict.keys d) (hT : T ≠ []) (hp : B.doMarg d (Dict.keys ev) (asg ev) ≠ 0) :
    ∃ r s t, causalQuery ch m' (T ++ U) d (some ev) = .ok r ∧ r.marginalize U = .ok s ∧ causalQuery ch m' T d (some ev) = .ok t ∧ SameTable T s t :=
  (exactly_causal hch h hd hm).marginal (storeOf_lawful vt) (h.valid.doBN _) ⟨hq.nonempty, hq.nodup, hq.nodes, ⟨hq.evidence.nodup, hq.evidence.nodes, hq.evidence.states⟩, hq.disjoint⟩
    hX hT (by rw [BN.doMarg_eq hd.nodes]; exact hp)

/-- **C114** the same for queries with imposed states: observing targets. -/
theorem C114_do_chain {ch : Choices V} (hch : ch.Ok) {m m' : SCM II LL} (h : CausalOk m B) {d : Obs V S} (hd : EvOk B d) (hm : new m = .ok m')
    (hq : GoodQuery B (T ++ U) ev) (hX : ∀ t ∈ T ++ U, t ∉ Dict.keys d) (hT : T ≠ []) (hU : U ≠ []) (hp : B.doMarg d (Dict.keys ev) (asg ev) ≠ 0) :
    ∃ r u, causalQuery ch m' (T ++ U) d (some ev) = .ok r ∧ causalQuery ch m' U d (some ev) = .ok u ∧ ∀ obs, FullObs r.dom obs →
      ∃ y, u.getValue obs = .ok (.fin y) ∧ (y ≠ 0 → ∃ t x, causalQuery ch m' T d (some (ev ++ statesOf (asg obs) U)) = .ok t ∧
        t.getValue obs = .ok (.fin x) ∧ r.getValue obs = .ok (.fin (x * y))) :=
  (exactly_causal hch h hd hm).chain (storeOf_lawful vt) (h.valid.doBN _) ⟨hq.nonempty, hq.nodup, hq.nodes, ⟨hq.evidence.nodup, hq.evidence.nodes, hq.evidence.states⟩, hq.disjoint⟩
    hX hT hU (by rw [BN.doMarg_eq hd.nodes]; exact hp)

/-- **C114** the same for queries with imposed states: order. -/
theorem C114_do_order {ch : Choices V} (hch : ch.Ok) {m m' : SCM II LL} (h : CausalOk m B) {d : Obs V S} (hd : EvOk B d) (hm : new m = .ok m')
    (hq : GoodQuery B T ev) (hX : ∀ t ∈ T, t ∉ Dict.keys d) {T' : List V} {ev' : Obs V S} (hT : T.Perm T') (he : ev.Perm ev') (hp : B.doMarg d (Dict.keys ev) (asg ev) ≠ 0) :
    ∃ r s, causalQuery ch m' T d (some ev) = .ok r ∧ causalQuery ch m' T' d (some ev') = .ok s ∧ SameTable T r s :=
  (exactly_causal hch h hd hm).order (storeOf_lawful vt) ⟨hq.nonempty, hq.nodup, hq.nodes, ⟨hq.evidence.nodup, hq.evidence.nodes, hq.evidence.states⟩, hq.disjoint⟩
    hX hT he (by rw [BN.doMarg_eq hd.nodes]; exact hp)

/-- The answers for `C, B`, summed over `B`; for `C`; for `B`; for `C` given `B`; and for `C` when `B = b` is also observed. -/
def cohAsk (vt : VType) : Py (List (List (Fl ℚ))) := do
  let m ← netOf vt gEx rowsEx
  let o : VEObj _ (IQ vt) := VEObj.new m
  let r ← (o.query chEx ['C', 'B'] (some [('D', 'a')])).2
  let s ← r.marginalize ['B']
  let t ← (o.query chEx ['C'] (some [('D', 'a')])).2
  let u ← (o.query chEx ['B'] (some [('D', 'a')])).2
  let c ← (o.queryCond chEx ['C'] ['B'] (some [('D', 'a')])).2
  let w ← (o.query chEx ['C'] (some [('D', 'a'), ('B', 'b')])).2
  let at' (f : Factor (IQ vt)) (l : List (Obs Char Char)) := l.mapM fun o => f.getValue o
  let x ← at' s [[('C', 'c')], [('C', 'e')]]
  let y ← at' t [[('C', 'c')], [('C', 'e')]]
  let z ← at' u [[('B', 'a')], [('B', 'b')]]
  let k ← at' c [[('C', 'c'), ('B', 'b')], [('C', 'e'), ('B', 'b')]]
  let l ← at' w [[('C', 'c')], [('C', 'e')]]
  return [x, y, z, k, l]

theorem C114_asked (vt : VType) : cohAsk vt = .ok [[q (13/140), q (19/28)], [q (13/140), q (19/28)], [q (4/7), q (3/7)], [q (1/20), q (3/4)], [q (1/20), q (3/4)]] := by
  cases vt <;> decide +kernel

/-- The hypotheses are met by the example network. -/
theorem C114_example (vt : VType) : ∃ m, netOf vt gEx rowsEx = .ok m ∧ Represents m (BN.ofModel (IQ vt) m) ∧ (BN.ofModel (IQ vt) m : BN Char Char ℚ).Valid ∧
    (BN.ofModel (IQ vt) m : BN Char Char ℚ).Normalised ∧ (BN.ofModel (IQ vt) m : BN Char Char ℚ).NonNeg ∧
    GoodQuery (BN.ofModel (IQ vt) m) (['C'] ++ ['B']) [('D', 'a')] ∧ (BN.ofModel (IQ vt) m : BN Char Char ℚ).marg ['D'] (asg [('D', 'a')]) ≠ 0 := by
  obtain ⟨m, h1, h2, h3, h4, h5, h6⟩ := ex_net vt
  have hc : (match netOf vt gEx rowsEx with
      | .ok m => decide ((BN.ofModel (IQ vt) m : BN Char Char ℚ).marg ['D'] (fun _ => 'a') ≠ 0 ∧ (BN.ofModel (IQ vt) m : BN Char Char ℚ).nodes = ['A', 'B', 'C', 'D'] ∧
          (BN.ofModel (IQ vt) m : BN Char Char ℚ).states 'D' = ['a', 'b'])
      | .error _ => false) = true := by cases vt <;> decide +kernel
  rw [h1] at hc
  simp only [decide_eq_true_eq] at hc
  refine ⟨m, h1, h3, h4, h5, h6, ⟨by decide, by decide, by rw [hc.2.1]; decide, ⟨by decide, by rw [hc.2.1]; decide, fun v s hs => ?_⟩, by decide⟩, ?_⟩
  · have := Dict.mem_of_get? hs
    simp only [List.mem_singleton, Prod.mk.injEq] at this
    rw [this.1, this.2, hc.2.2]; decide
  · rw [h4.marg_dep _ _ (fun _ => 'a') fun v hv => by rw [List.mem_singleton.1 hv]; exact over_of_get? rfl]
    exact hc.1

end Props
end Verif
