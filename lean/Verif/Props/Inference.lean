import Verif.Inference.QueryLemmas
import Verif.Props.ExNet

/-!
# Properties of variable elimination (C36, C37, C38, C39, C40)

`Represents m B` (`Model/Represents.lean`) says that the model object `m` holds the graph and the tables of the network
`B`; `B.marg` is the brute-force marginal of `Spec/BN.lean`.  `asg obs` is the assignment given by a dictionary.
-/

set_option linter.unusedSectionVars false
set_option linter.unusedSimpArgs false

namespace Verif.Props
open Verif Relation

variable {V S K : Type} [DecidableEq V] [DecidableEq S] [Nonempty S] [Field K] [LinearOrder K] {vt : VType}
  {F : Type} [VEFactor F (storeOf vt : StoreImpl V S (Fl K))]

/-- A query that the library accepts: targets are distinct nodes, at least one, and none of them is observed; the
evidence gives states to nodes. -/
structure GoodQuery (B : BN V S K) (T : List V) (ev : Obs V S) : Prop where
  nonempty : T ≠ []
  nodup : T.Nodup
  nodes : ∀ t ∈ T, t ∈ B.nodes
  evidence : EvOk B ev
  disjoint : ∀ t ∈ T, t ∉ Dict.keys ev

theorem GoodQuery.names {B : BN V S K} {T : List V} {ev : Obs V S} (hq : GoodQuery B T ev) {m : DagModel F V S}
    (hr : Represents m B) : ∀ v ∈ T ++ Dict.keys ev, v ∈ m.graph.nodes := by
  intro v hv
  rw [hr.nodes]
  rcases List.mem_append.1 hv with h | h
  · exact hq.nodes v h
  · exact hq.evidence.nodes v h

/-- What a query returns, before any assumption on the evidence. -/
theorem query_core {ch : Choices V} (hch : ch.Ok) (o : VEObj F (storeOf vt)) {B : BN V S K} (hr : Represents o.model B)
    (hB : B.Valid) (hn : B.Normalised) {T : List V} {ev : Obs V S} (hq : GoodQuery B T ev) {e : Option (Obs V S)}
    (hev : e.getD [] = ev) :
    ∃ r, (o.query ch T e).2 = .ok r ∧ r.WF ∧ (∀ p ∈ r.dom, p.2 = B.states p.1) ∧
      (∀ v, v ∈ r.vars ↔ v ∈ T) ∧ (∀ v, v ∈ r.leftVars ↔ v ∈ T) ∧
      ∀ obs, FullObs r.dom obs → r.getValue obs = .ok ((storeOf vt : StoreImpl V S (Fl K)).divWrap Fl.nanToNum
        (.fin (veNum B o.model.graph T ev (asg obs)) / .fin (veDen B o.model.graph T ev (asg obs)))) := by
  have hI := storeOf_lawful (V := V) (S := S) (α := Fl K) vt
  obtain ⟨m', r, h1, _, h2, h3, h4, h5, h6, h7⟩ := ve_core hI hch hr hB hn hq.nodes hq.nodup hq.nonempty hq.evidence
    hq.disjoint
  refine ⟨r, ?_, h3, h4, h5, h6, fun obs ho => ?_⟩
  · rw [VEObj.query_ok o hev hq.nodup hq.disjoint (hq.names hr) h1]; exact h2
  · rw [Factor.getValue_full hI h3 ho, h7]
    intro t ht
    exact Factor.states_of_inDom h4 ho.inDom t ((h5 t).2 ht)

/-! ### C36 -/

/-- **C36** variable elimination returns the exact posterior: for every network, every admissible elimination order,
every store type, every query and evidence of non-zero probability, the result is a factor over exactly the targets,
with the states of the network, whose value at each joint state is `P(target, evidence) / P(evidence)`.  The state in
which earlier calls left the inference object does not matter. -/
theorem C36_exact_posterior {ch : Choices V} (hch : ch.Ok) (o : VEObj F (storeOf vt)) {B : BN V S K}
    (hr : Represents o.model B) (hB : B.Valid) (hn : B.Normalised) {T : List V} {ev : Obs V S} (hq : GoodQuery B T ev)
    {e : Option (Obs V S)} (hev : e.getD [] = ev) (hp : B.marg (Dict.keys ev) (asg ev) ≠ 0) :
    ∃ r, (o.query ch T e).2 = .ok r ∧ r.WF ∧ (∀ p ∈ r.dom, p.2 = B.states p.1) ∧
      (∀ v, v ∈ r.vars ↔ v ∈ T) ∧ (∀ v, v ∈ r.leftVars ↔ v ∈ T) ∧
      ∀ obs, FullObs r.dom obs → r.getValue obs =
        .ok (.fin (B.marg (T ++ Dict.keys ev) (asg (ev ++ obs)) / B.marg (Dict.keys ev) (asg ev))) := by
  have hI := storeOf_lawful (V := V) (S := S) (α := Fl K) vt
  obtain ⟨r, h1, h2, h3, h4, h5, h6⟩ := query_core hch o hr hB hn hq hev
  refine ⟨r, h1, h2, h3, h4, h5, fun obs ho => ?_⟩
  have hst : ∀ t ∈ T, (asg obs : V → S) t ∈ B.states t := fun t ht =>
    Factor.states_of_inDom h3 ho.inDom t ((h4 t).2 ht)
  obtain ⟨q, e1, e2⟩ := ve_factor hr hB hn hq.nodes hq.evidence hst
  have hde : B.marg (Dict.keys ev) (over ev (asg obs)) = B.marg (Dict.keys ev) (asg ev) :=
    hB.marg_dep _ _ _ fun v hv => over_agree (vs := []) (by simp) v (by simpa using hv)
  rw [hde] at e2
  have hne : veDen B o.model.graph T ev (asg obs) ≠ 0 := by
    intro hz; rw [hz, zero_mul] at e2; exact hp e2
  have hqe : q ≠ 0 := by
    intro hz; rw [hz, mul_zero] at e2; exact hp e2
  rw [h6 obs ho, Fl.fin_div hne, asg_append, e1, e2, mul_div_mul_right _ _ hqe]
  rcases hI.divWrap_or with h | h <;> rw [h]
  rfl

/-- The posterior of `C` and `A` given `D = a` in the example network; the query meets the hypotheses. -/
theorem ex_good {vt : VType} {m : DagModel (Factor (IQ vt)) Char Char} (h : netOf vt gEx rowsEx = .ok m) :
    GoodQuery (BN.ofModel (IQ vt) m : BN Char Char ℚ) ['C', 'A'] [('D', 'a')] := by
  obtain ⟨m', h1, h2, h3, _⟩ := ex_net vt
  rw [h] at h1; injection h1 with h1; subst h1
  have hst : 'a' ∈ (BN.ofModel (IQ vt) m : BN Char Char ℚ).states 'D' := by
    have : ∀ vt, (match netOf vt gEx rowsEx with
      | .ok m => decide ('a' ∈ (BN.ofModel (IQ vt) m : BN Char Char ℚ).states 'D')
      | .error _ => false) = true := by intro vt; cases vt <;> decide +kernel
    have := this vt
    rw [h] at this
    simpa using this
  refine ⟨by decide, by decide, by rw [← h3.nodes, h2]; decide, ⟨by decide, by rw [← h3.nodes, h2]; decide, ?_⟩, by decide⟩
  intro v s hs
  have : v = 'D' ∧ s = 'a' := by
    rw [Dict.get?] at hs
    split at hs
    · rename_i hv; injection hs with hs; exact ⟨hv.symm, hs.symm⟩
    · cases hs
  rw [this.1, this.2]; exact hst

/-- Sets are listed in order of first occurrence (one of the possibilities). -/
def chEx : Choices Char := ⟨Ordering.elimOrdering .minFill (fun _ => 0), List.dedup⟩

theorem chEx_ok : chEx.Ok := builtin_ok _ _ fun l => ⟨List.nodup_dedup l, fun v => List.mem_dedup⟩

/-- The theorem applies: P(D = a) is not zero, and the answer is a number, for example P(C = d, A = a | D = a). -/
example : ∃ m, netOf .numpy gEx rowsEx = .ok m ∧ (BN.ofModel (IQ .numpy) m : BN Char Char ℚ).marg ['D'] (asg [('D', 'a')]) ≠ 0 ∧
    GoodQuery (BN.ofModel (IQ .numpy) m : BN Char Char ℚ) ['C', 'A'] [('D', 'a')] ∧
    (do let r ← ((VEObj.new m : VEObj _ (IQ .numpy)).query chEx ['C', 'A'] (some [('D', 'a')])).2
        r.getValue [('C', 'd'), ('A', 'a')]) = .ok (q (4/35)) := by
  obtain ⟨m, h1, h2, h3, h4, h5, h6⟩ := ex_net .numpy
  have hc : (match netOf .numpy gEx rowsEx with
      | .ok m => decide ((BN.ofModel (IQ .numpy) m : BN Char Char ℚ).marg ['D'] (fun _ => 'a') ≠ 0 ∧
        (do let r ← ((VEObj.new m : VEObj _ (IQ .numpy)).query chEx ['C', 'A'] (some [('D', 'a')])).2
            r.getValue [('C', 'd'), ('A', 'a')]) = .ok (q (4/35)))
      | .error _ => false) = true := by decide +kernel
  rw [h1] at hc
  simp only [decide_eq_true_eq] at hc
  refine ⟨m, h1, ?_, ex_good h1, hc.2⟩
  rw [h4.marg_dep ['D'] _ (fun _ => 'a')]
  · exact hc.1
  · intro v hv
    have : v = 'D' := by simpa using hv
    subst this
    exact over_of_get? rfl

/-! ### C37 -/

/-- **C37** two admissible choices of heuristic (and of the order in which python lists sets) give the same answer,
whatever the evidence. -/
theorem C37_heuristic_irrelevant {ch ch' : Choices V} (hch : ch.Ok) (hch' : ch'.Ok) (o o' : VEObj F (storeOf vt : StoreImpl V S (Fl K)))
    (ho : o'.model = o.model) {B : BN V S K} (hr : Represents o.model B) (hB : B.Valid) (hn : B.Normalised) {T : List V}
    {ev : Obs V S} (hq : GoodQuery B T ev) {e : Option (Obs V S)} (hev : e.getD [] = ev) :
    ∃ r r', (o.query ch T e).2 = .ok r ∧ (o'.query ch' T e).2 = .ok r' ∧ (∀ v, v ∈ r.vars ↔ v ∈ r'.vars) ∧
      ∀ obs, FullObs r.dom obs → FullObs r'.dom obs ∧ r.getValue obs = r'.getValue obs := by
  obtain ⟨r, h1, h2, h3, h4, h5, h6⟩ := query_core hch o hr hB hn hq hev
  obtain ⟨r', h1', h2', h3', h4', h5', h6'⟩ := query_core hch' o' (ho ▸ hr) hB hn hq hev
  refine ⟨r, r', h1, h1', fun v => by rw [h4, h4'], fun obs hobs => ?_⟩
  have hf : FullObs r'.dom obs := by
    intro p hp
    have hv : p.1 ∈ r.vars := (h4 _).2 ((h4' _).1 (Dict.mem_keys_of_mem hp))
    obtain ⟨st, hst⟩ := Dict.mem_keys.1 hv
    obtain ⟨s, hs, hg⟩ := hobs _ hst
    refine ⟨s, ?_, hg⟩
    rw [h3' p hp, ← h3 _ hst]; exact hs
  exact ⟨hf, by rw [h6 obs hobs, h6' obs hf, ho]⟩

/-- **C37** the three built-in heuristics are admissible, whatever the tie-breaking, and so is every user supplied
function that returns each variable to remove once. -/
theorem C37_admissible (k : Ordering.Kind) (rnd : Nat → Nat) {so : List V → List V}
    (hso : ∀ l, (so l).Nodup ∧ ∀ v, v ∈ so l ↔ v ∈ l) :
    Choices.Ok ⟨Ordering.elimOrdering k rnd, so⟩ ∧
      ∀ h : DiGraph V → List V → List (V × Nat) → List V, (∀ g rm sizes, rm.Nodup → (h g rm sizes).Perm rm) →
        Choices.Ok ⟨fun g rm sizes => .ok (h g rm sizes), so⟩ :=
  ⟨builtin_ok k rnd hso, fun h hh => ⟨fun g rm sizes _ _ hn _ _ => ⟨_, rfl, hh g rm sizes hn⟩, hso⟩⟩

/-- Eliminating in the given order and eliminating in reverse. -/
example : Choices.Ok (⟨fun _ rm _ => .ok rm.reverse, List.dedup⟩ : Choices Char) ∧ chEx.Ok :=
  ⟨((C37_admissible .minFill (fun _ => 0) fun l => ⟨List.nodup_dedup l, fun v => List.mem_dedup⟩).2
    (fun _ rm _ => rm.reverse) fun _ rm _ _ => rm.reverse_perm), chEx_ok⟩

/-! ### C38 -/

/-- **C38** pruning keeps all targets, removes exactly the barren nodes and those cut off from the targets, and yields
the object of a network over the remaining nodes (whose tables are normalised) with the same posterior. -/
theorem C38_pruning {m : DagModel F V S} {B : BN V S K} (hr : Represents m B) (hB : B.Valid) (hn : B.Normalised)
    {T : List V} {ev : Obs V S} (hq : GoodQuery B T ev) :
    ∃ (m' : DagModel (Factor (storeOf vt : StoreImpl V S (Fl K))) V S) (B' : BN V S K),
      minimalize m T ev = .ok m' ∧ Represents m' B' ∧ B'.Valid ∧ B'.Normalised ∧
      (∀ v, v ∈ B'.nodes ↔ v ∈ B.nodes ∧ Kept m.graph T (Dict.keys ev) v) ∧ (∀ t ∈ T, t ∈ B'.nodes) ∧
      B'.states = B.states ∧ (∀ v p, p ∈ B'.parents v ↔ p ∈ B.parents v ∧ p ∉ Dict.keys ev) ∧
      (B.marg (Dict.keys ev) (asg ev) ≠ 0 → B'.marg (Dict.keys ev) (asg ev) ≠ 0) ∧
      ∀ a, (∀ t ∈ T, a t ∈ B.states t) → B.marg (Dict.keys ev) (asg ev) ≠ 0 →
        B'.marg (T ++ Dict.keys ev) (over ev a) / B'.marg (Dict.keys ev) (asg ev) =
          B.marg (T ++ Dict.keys ev) (over ev a) / B.marg (Dict.keys ev) (asg ev) := by
  have hI := storeOf_lawful (V := V) (S := S) (α := Fl K) vt
  have hTg : ∀ t ∈ T, t ∈ m.graph.nodes := fun t ht => hr.nodes ▸ hq.nodes t ht
  have hac := hr.acyclic hB
  obtain ⟨M, P, hs⟩ := irrelevant_spec hr.wf hac (E := Dict.keys ev) hTg
  have hch : Choices.Ok (⟨Ordering.elimOrdering .minFill (fun _ => 0), List.dedup⟩ : Choices V) :=
    builtin_ok _ _ fun l => ⟨List.nodup_dedup l, fun v => List.mem_dedup⟩
  obtain ⟨m', r, h1, h2, _⟩ := ve_core hI hch hr hB hn hq.nodes hq.nodup hq.nonempty hq.evidence hq.disjoint
  obtain ⟨v1, v2⟩ := pruned_valid hr hB hn hq.nodes hq.evidence
  have hclosed : ∀ v ∈ kept m.graph T ev, ∀ p ∈ B.parents v, p ∉ Dict.keys ev → p ∈ kept m.graph T ev :=
    fun v hv p hp hk => hs.keep v hv p ((hr.parents v (hr.nodes ▸ (List.mem_filter.1 hv).1) p).1 hp) hk
  -- the marginals of the pruned network
  have hden : ∀ a : V → S, (prunedBN B m.graph T ev).marg (Dict.keys ev) (asg ev) = veDen B m.graph T ev a := by
    intro a
    have := pruned_marg hr hB (T := T) (W := []) hq.evidence (a := a) (by simp) hclosed
    simp only [List.nil_append] at this
    rw [veDen, ← this]
    exact v1.marg_dep _ _ _ fun v hv => over_agree (vs := []) (by simp) v (by simpa using hv)
  have hnum : ∀ a : V → S, (∀ t ∈ T, a t ∈ B.states t) →
      (prunedBN B m.graph T ev).marg (T ++ Dict.keys ev) (over ev a) = veNum B m.graph T ev a :=
    fun a ha => pruned_marg hr hB (T := T) (W := T) hq.evidence ha hclosed
  have hde : ∀ a, B.marg (Dict.keys ev) (over ev a) = B.marg (Dict.keys ev) (asg ev) := fun a =>
    hB.marg_dep _ _ _ fun v hv => over_agree (vs := []) (by simp) v (by simpa using hv)
  have hex : ∃ a : V → S, ∀ t ∈ T, a t ∈ B.states t := by
    refine ⟨fun v => (B.states v).headD Classical.ofNonempty, fun t ht => ?_⟩
    have := hB.nonempty t (hq.nodes t ht)
    cases hst : B.states t with
    | nil => exact absurd hst this
    | cons s l => simp [hst]
  refine ⟨m', prunedBN B m.graph T ev, h1, h2, v1, v2, ?_, hs.target, rfl, ?_, ?_, ?_⟩
  · intro v
    rw [← hr.nodes]
    exact mem_kept hr.wf hac hTg
  · intro v p
    exact mem_filter_not _ _ _
  · intro hp hz
    obtain ⟨a, ha⟩ := hex
    obtain ⟨q, _, e2⟩ := ve_factor hr hB hn hq.nodes hq.evidence ha
    rw [hde, ← hden a, hz, zero_mul] at e2
    exact hp e2
  · intro a ha hp
    obtain ⟨q, e1, e2⟩ := ve_factor hr hB hn hq.nodes hq.evidence ha
    rw [hde, ← hden a] at e2
    rw [← hnum a ha] at e1
    have hqe : q ≠ 0 := by intro hz; rw [hz, mul_zero] at e2; exact hp e2
    rw [e1, e2, mul_div_mul_right _ _ hqe]

/-- In the example network, asking for `C` given `B` removes `D` (barren), and `A` and `B` (cut off). -/
example (vt : VType) : (do
    let m ← netOf vt gEx rowsEx
    let m' ← (minimalize m ['C'] [('B', 'a')] : Py (DagModel (Factor (IQ vt)) Char Char))
    return m'.graph) = (.ok ⟨['C'], []⟩ : Py (DiGraph Char)) := by
  cases vt <;> decide +kernel

/-! ### C39 -/

/-- What a conditional query returns when the evidence has non-zero probability, for any store. -/
theorem cond_core {ch : Choices V} (hch : ch.Ok) (o : VEObj F (storeOf vt : StoreImpl V S (Fl K))) {B : BN V S K}
    (hr : Represents o.model B) (hB : B.Valid) (hn : B.Normalised) {T C : List V} {ev : Obs V S}
    (hTn : T.Nodup) (hTC : ∀ t ∈ T, t ∉ C) (h0 : T ++ C ≠ []) (hT : ∀ t ∈ T ++ C, t ∈ B.nodes) (he : EvOk B ev)
    (hdis : ∀ t ∈ T ++ C, t ∉ Dict.keys ev) {e : Option (Obs V S)} (hev : e.getD [] = ev)
    (hp : B.marg (Dict.keys ev) (asg ev) ≠ 0) :
    ∃ r, (o.queryCond ch T C e).2 = .ok r ∧ r.WF ∧ (∀ p ∈ r.dom, p.2 = B.states p.1) ∧
      (∀ v, v ∈ r.vars ↔ v ∈ T ∨ v ∈ C) ∧ (∀ v, v ∈ r.leftVars ↔ v ∈ T) ∧ (∀ v, v ∈ r.rightVars ↔ v ∈ C) ∧
      ∀ obs, FullObs r.dom obs → r.getValue obs = .ok ((storeOf vt : StoreImpl V S (Fl K)).divWrap Fl.nanToNum
        (.fin (B.marg (T ++ (C ++ Dict.keys ev)) (asg (ev ++ obs)) * (B.marg (Dict.keys ev) (asg ev))⁻¹) /
          .fin (B.marg (C ++ Dict.keys ev) (asg (ev ++ obs)) * (B.marg (Dict.keys ev) (asg ev))⁻¹))) := by
  have hI := storeOf_lawful (V := V) (S := S) (α := Fl K) vt
  obtain ⟨W, hW⟩ : ∃ W, ch.setOrd (T ++ C) = W := ⟨_, rfl⟩
  obtain ⟨w1, w2⟩ := hch.setOrd (T ++ C)
  rw [hW] at w1 w2
  have hWn : ∀ t ∈ W, t ∈ B.nodes := fun t ht => hT t ((w2 t).1 ht)
  have hW0 : W ≠ [] := by
    intro hc
    obtain ⟨x, hx⟩ := List.exists_mem_of_ne_nil _ h0
    have := (w2 x).2 hx
    rw [hc] at this; cases this
  have hWd : ∀ t ∈ W, t ∉ Dict.keys ev := fun t ht => hdis t ((w2 t).1 ht)
  have hq : GoodQuery B W ev := ⟨hW0, w1, hWn, he, hWd⟩
  obtain ⟨m', p, h1, _, h2, h3, h4, h5, h6, h7⟩ := ve_core hI hch hr hB hn hWn w1 hW0 he hWd
  set P := B.marg (Dict.keys ev) (asg ev) with hP
  -- the joint is the table of P(t, c | e)
  have hrep : Factor.Rep B.states p (fun a => B.marg (T ++ (C ++ Dict.keys ev)) (over ev a) * P⁻¹) := by
    refine ⟨h3, h4, fun a ha => ?_⟩
    have hst : ∀ t ∈ W, a t ∈ B.states t := fun t ht => ha t ((h5 t).2 ht)
    obtain ⟨x, e1, e2⟩ := ve_factor hr hB hn hWn he hst
    have hde : B.marg (Dict.keys ev) (over ev a) = P :=
      hB.marg_dep _ _ _ fun v hv => over_agree (vs := []) (by simp) v (by simpa using hv)
    rw [hde] at e2
    have hne : veDen B o.model.graph W ev a ≠ 0 := by
      intro hz; rw [hz, zero_mul] at e2; exact hp e2
    have hqe : x ≠ 0 := by
      intro hz; rw [hz, mul_zero] at e2; exact hp e2
    have hset : B.marg (W ++ Dict.keys ev) = B.marg (T ++ (C ++ Dict.keys ev)) := by
      refine BN.marg_congr_set fun v _ => ?_
      rw [List.mem_append, w2, List.mem_append, List.mem_append, List.mem_append, or_assoc]
    rw [h7 a hst, Fl.fin_div hne, ← hset, e1, e2, ← div_eq_mul_inv, mul_div_mul_right _ _ hqe]
    rcases hI.divWrap_or with h | h <;> rw [h]
    rfl
  have hTp : ∀ t ∈ T, t ∈ p.vars := fun t ht => (h5 t).2 ((w2 t).2 (List.mem_append_left _ ht))
  obtain ⟨g, g1, g2, g3, g4, g5⟩ := hrep.marginalize hI hTp hTn
  have hTE : ∀ t ∈ T, t ∉ Dict.keys ev := fun t ht => hdis t (List.mem_append_left _ ht)
  have hsum : ∀ a, sumOver B.states T (fun a => B.marg (T ++ (C ++ Dict.keys ev)) (over ev a) * P⁻¹) a =
      B.marg (C ++ Dict.keys ev) (over ev a) * P⁻¹ := by
    intro a
    rw [sumOver_mul_right (vs := []) (g := fun _ => P⁻¹) (fun _ _ _ => rfl) (by simp),
      sumOver_over hTE, hB.sum_marg (fun t ht => hT t (List.mem_append_left _ ht)) hTn]
    intro t ht hc
    rcases List.mem_append.1 hc with h | h
    · exact hTC t ht h
    · exact hTE t ht h
  obtain ⟨r, r1, r2, r3, r4, r5⟩ := Factor.divideG_ok hI
    (fun x y => (storeOf vt : StoreImpl V S (Fl K)).divWrap Fl.nanToNum (x / y)) h3 g2.wf (hrep.compat g2)
  have hrd : r.dom = p.dom := by
    rw [r3, g3, domUnion]
    refine List.append_right_eq_self.2 ?_
    refine List.filter_eq_nil_iff.2 fun x hx => ?_
    have : x.1 ∈ Dict.keys p.dom := by
      have : x ∈ p.dom := by
        rw [domOut] at hx; exact (List.mem_filter.1 hx).1
      exact Dict.mem_keys_of_mem this
    simpa using this
  have hrv : ∀ v, v ∈ r.vars ↔ v ∈ T ∨ v ∈ C := by
    intro v
    rw [Factor.vars, hrd]
    exact (h5 v).trans ((w2 v).trans List.mem_append)
  have hpr : ∀ v ∈ p.vars, v ∉ p.rightVars := by
    intro v hv
    have hl := (h6 v).2 ((h5 v).1 hv)
    exact ((Factor.mem_leftVars hI).1 hl).2
  have hrr : ∀ v, v ∈ r.rightVars ↔ v ∈ C := by
    intro v
    rw [r4]
    simp only [List.mem_filter, decide_eq_true_eq, hrv, g4, h5, w2, List.mem_append]
    constructor
    · rintro ⟨h1, h2 | h2⟩
      · exact absurd h2 (hpr v ((h5 v).2 ((w2 v).2 (List.mem_append.2 h1))))
      · exact h2.1.resolve_left h2.2
    · intro h
      exact ⟨.inr h, .inr ⟨.inr h, fun hc => hTC v hc h⟩⟩
  refine ⟨r, ?_, r2, fun x hx => h4 x (hrd ▸ hx), hrv, ?_, hrr, ?_⟩
  · rw [VEObj.queryCond_ok o hW hTC hev w1 hWd (hq.names hr) h1]
    simp only [h2, py_ok_bind, g1]
    exact r1
  · intro v
    rw [Factor.mem_leftVars hI, hrv, hrr]
    constructor
    · rintro ⟨h | h, h'⟩
      · exact h
      · exact absurd h h'
    · intro h
      exact ⟨.inl h, hTC v h⟩
  · intro obs ho
    have hin : InDom p.dom (asg obs) := hrd ▸ ho.inDom
    have hpv : ∀ v ∈ p.vars, (asg obs : V → S) v ∈ B.states v := Factor.states_of_inDom h4 hin
    rw [Factor.getValue_full hI r2 ho, r5 _ ho.inDom, hrep.sem _ hpv, g2.sem _ (fun v hv => hpv v ((g4 v).1 hv).1), hsum,
      asg_append]

/-- **C39** (partial: the evidence must have non-zero probability, see `C39_zero_evidence`) a conditional query with the
default store and non-negative tables returns a factor over the targets (left) and the conditioning variables (right)
whose value is `P(t, c, e) / P(c, e)`, and 0 where `P(c, e) = 0` (in a field `x / 0 = 0`). -/
theorem C39_conditional_partial [IsStrictOrderedRing K] {F : Type} [VEFactor F (storeOf .numpy : StoreImpl V S (Fl K))]
    {ch : Choices V} (hch : ch.Ok) (o : VEObj F (storeOf .numpy : StoreImpl V S (Fl K))) {B : BN V S K}
    (hr : Represents o.model B) (hB : B.Valid) (hn : B.Normalised) (hnn : B.NonNeg) {T C : List V} {ev : Obs V S}
    (hTn : T.Nodup) (hTC : ∀ t ∈ T, t ∉ C) (h0 : T ++ C ≠ []) (hT : ∀ t ∈ T ++ C, t ∈ B.nodes) (he : EvOk B ev)
    (hdis : ∀ t ∈ T ++ C, t ∉ Dict.keys ev) {e : Option (Obs V S)} (hev : e.getD [] = ev)
    (hp : B.marg (Dict.keys ev) (asg ev) ≠ 0) :
    ∃ r, (o.queryCond ch T C e).2 = .ok r ∧ r.WF ∧ (∀ p ∈ r.dom, p.2 = B.states p.1) ∧
      (∀ v, v ∈ r.vars ↔ v ∈ T ∨ v ∈ C) ∧ (∀ v, v ∈ r.leftVars ↔ v ∈ T) ∧ (∀ v, v ∈ r.rightVars ↔ v ∈ C) ∧
      ∀ obs, FullObs r.dom obs → r.getValue obs = .ok (.fin
        (B.marg (T ++ (C ++ Dict.keys ev)) (asg (ev ++ obs)) / B.marg (C ++ Dict.keys ev) (asg (ev ++ obs)))) := by
  obtain ⟨r, r1, r2, r3, r4, r5, r6, r7⟩ := cond_core hch o hr hB hn hTn hTC h0 hT he hdis hev hp
  refine ⟨r, r1, r2, r3, r4, r5, r6, fun obs ho => ?_⟩
  rw [r7 obs ho]
  have hpi : (B.marg (Dict.keys ev) (asg ev))⁻¹ ≠ 0 := inv_ne_zero hp
  by_cases hz : B.marg (C ++ Dict.keys ev) (asg (ev ++ obs)) = 0
  · have hnum : B.marg (T ++ (C ++ Dict.keys ev)) (asg (ev ++ obs)) = 0 := by
      refine BN.marg_zero hB hnn (fun t ht => hT t (List.mem_append_left _ ht)) hTn ?_ ?_ hz
      · intro t ht hc
        rcases List.mem_append.1 hc with h | h
        · exact hTC t ht h
        · exact hdis t (List.mem_append_left _ ht) h
      · intro v hv _
        rw [asg_append]
        by_cases hk : v ∈ Dict.keys ev
        · obtain ⟨s, hs⟩ := Option.isSome_iff_exists.1 (Dict.get?_isSome.2 hk)
          rw [over_of_get? hs]; exact he.states v s hs
        · rw [over_of_not_mem hk]
          refine Factor.states_of_inDom r3 ho.inDom v ((r4 v).2 ?_)
          rcases List.mem_append.1 hv with h | h
          · exact .inl h
          · exact .inr ((List.mem_append.1 h).resolve_right hk)
    rw [hz, hnum, zero_mul, Fl.zero_div_zero, div_zero]
    rfl
  · rw [Fl.fin_div (mul_ne_zero hz hpi), mul_div_mul_right _ _ hpi]
    rfl

/-- **C39** every store, where `P(c, e)` is not zero. -/
theorem C39_conditional_any_store {ch : Choices V} (hch : ch.Ok) (o : VEObj F (storeOf vt : StoreImpl V S (Fl K)))
    {B : BN V S K} (hr : Represents o.model B) (hB : B.Valid) (hn : B.Normalised) {T C : List V} {ev : Obs V S}
    (hTn : T.Nodup) (hTC : ∀ t ∈ T, t ∉ C) (h0 : T ++ C ≠ []) (hT : ∀ t ∈ T ++ C, t ∈ B.nodes) (he : EvOk B ev)
    (hdis : ∀ t ∈ T ++ C, t ∉ Dict.keys ev) {e : Option (Obs V S)} (hev : e.getD [] = ev)
    (hp : B.marg (Dict.keys ev) (asg ev) ≠ 0) :
    ∃ r, (o.queryCond ch T C e).2 = .ok r ∧ r.WF ∧ (∀ p ∈ r.dom, p.2 = B.states p.1) ∧
      (∀ v, v ∈ r.vars ↔ v ∈ T ∨ v ∈ C) ∧ (∀ v, v ∈ r.leftVars ↔ v ∈ T) ∧ (∀ v, v ∈ r.rightVars ↔ v ∈ C) ∧
      ∀ obs, FullObs r.dom obs → B.marg (C ++ Dict.keys ev) (asg (ev ++ obs)) ≠ 0 → r.getValue obs = .ok (.fin
        (B.marg (T ++ (C ++ Dict.keys ev)) (asg (ev ++ obs)) / B.marg (C ++ Dict.keys ev) (asg (ev ++ obs)))) := by
  have hI := storeOf_lawful (V := V) (S := S) (α := Fl K) vt
  obtain ⟨r, r1, r2, r3, r4, r5, r6, r7⟩ := cond_core hch o hr hB hn hTn hTC h0 hT he hdis hev hp
  refine ⟨r, r1, r2, r3, r4, r5, r6, fun obs ho hz => ?_⟩
  have hpi : (B.marg (Dict.keys ev) (asg ev))⁻¹ ≠ 0 := inv_ne_zero hp
  rw [r7 obs ho, Fl.fin_div (mul_ne_zero hz hpi), mul_div_mul_right _ _ hpi]
  rcases hI.divWrap_or with h | h <;> rw [h]
  rfl

/-- **C39** these values sum to one over the target, for every configuration of the conditioning variables that has
non-zero probability. -/
theorem C39_sums_to_one {B : BN V S K} (hB : B.Valid) {T C : List V} {ev : Obs V S} (hTn : T.Nodup)
    (hTC : ∀ t ∈ T, t ∉ C) (hT : ∀ t ∈ T, t ∈ B.nodes) (hdis : ∀ t ∈ T, t ∉ Dict.keys ev) {a : V → S}
    (hp : B.marg (C ++ Dict.keys ev) a ≠ 0) :
    sumOver B.states T (fun b => B.marg (T ++ (C ++ Dict.keys ev)) b / B.marg (C ++ Dict.keys ev) b) a = 1 := by
  have hd : ∀ t ∈ T, t ∉ C ++ Dict.keys ev := by
    intro t ht hc
    rcases List.mem_append.1 hc with h | h
    · exact hTC t ht h
    · exact hdis t ht h
  have : DependsOn (fun b => (B.marg (C ++ Dict.keys ev) b)⁻¹) (C ++ Dict.keys ev) := fun x y h => by
    show (B.marg _ x)⁻¹ = (B.marg _ y)⁻¹
    rw [hB.marg_dep _ x y h]
  simp only [div_eq_mul_inv]
  rw [sumOver_mul_right this hd, hB.sum_marg hT hTn hd, mul_inv_cancel₀ hp]

/-- `A → B` and an isolated `Z` that is never `b`. -/
def gEx2 : DiGraph Char := ⟨['A', 'B', 'Z'], [('A', 'B')]⟩
def rowsEx2 : List Row :=
  [([('A', ['a', 'b'])], [q (1/2), q (1/2)], 'A'),
   ([('B', ['a', 'b']), ('A', ['a', 'b'])], [q 1, q (1/4), q 0, q (3/4)], 'B'),
   ([('Z', ['a', 'b'])], [q 1, q 0], 'Z')]

/-- The clause "0 where P(c, e) = 0" fails when the evidence has probability zero because of a part of the network
that pruning drops: here `P(Z = b) = 0`, but the answer for `B` given `A`, `Z = b` is the table of `B`. -/
theorem C39_zero_evidence :
    ∃ m, netOf .numpy gEx2 rowsEx2 = .ok m ∧ Represents m (BN.ofModel (IQ .numpy) m) ∧
      (BN.ofModel (IQ .numpy) m : BN Char Char ℚ).marg ['A', 'Z'] (fun v => if v = 'Z' then 'b' else 'a') = 0 ∧
      (do let r ← ((VEObj.new m : VEObj _ (IQ .numpy)).queryCond chEx ['B'] ['A'] (some [('Z', 'b')])).2
          r.getValue [('B', 'a'), ('A', 'a')]) = .ok (q 1) := by
  have hnc : netCheck .numpy gEx2 rowsEx2 = true := by decide +kernel
  obtain ⟨m, h1, h2, h3, h4, h5, h6⟩ := netOf_spec (by decide) hnc
  have hc : (match netOf .numpy gEx2 rowsEx2 with
      | .ok m => decide ((BN.ofModel (IQ .numpy) m : BN Char Char ℚ).marg ['A', 'Z'] (fun v => if v = 'Z' then 'b' else 'a') = 0 ∧
        (do let r ← ((VEObj.new m : VEObj _ (IQ .numpy)).queryCond chEx ['B'] ['A'] (some [('Z', 'b')])).2
            r.getValue [('B', 'a'), ('A', 'a')]) = .ok (q 1))
      | .error _ => false) = true := by decide +kernel
  rw [h1] at hc
  simp only [decide_eq_true_eq] at hc
  exact ⟨m, h1, h3, hc.1, hc.2⟩

/-- A conditional query on the example network: P(C = e | A = b), and it is 0 where the condition is impossible:
P(C = e | A = a, B = b). -/
example : (do
    let m ← netOf .numpy gEx rowsEx
    let r ← ((VEObj.new m : VEObj _ (IQ .numpy)).queryCond chEx ['C'] ['A', 'B'] none).2
    let x ← r.getValue [('C', 'e'), ('A', 'b'), ('B', 'b')]
    let y ← r.getValue [('C', 'e'), ('A', 'a'), ('B', 'b')]
    return (x, y)) = .ok (q (1/2), q 0) := by decide +kernel

/-! ### C40 -/

/-- **C40** with the default store and non-negative tables the values returned are always numbers: when the evidence
has probability zero in the pruned model they are all 0, otherwise they are the posterior of the pruned model. -/
theorem C40_impossible_evidence [IsStrictOrderedRing K] {F : Type} [VEFactor F (storeOf .numpy : StoreImpl V S (Fl K))]
    {ch : Choices V} (hch : ch.Ok) (o : VEObj F (storeOf .numpy : StoreImpl V S (Fl K))) {B : BN V S K}
    (hr : Represents o.model B) (hB : B.Valid) (hn : B.Normalised) (hnn : B.NonNeg) {T : List V} {ev : Obs V S}
    (hq : GoodQuery B T ev) {e : Option (Obs V S)} (hev : e.getD [] = ev) :
    ∃ (m' : DagModel (Factor (storeOf .numpy : StoreImpl V S (Fl K))) V S) (B' : BN V S K) (r : _),
      minimalize o.model T ev = .ok m' ∧ Represents m' B' ∧ B'.Valid ∧ (o.query ch T e).2 = .ok r ∧
      (∀ v, v ∈ r.vars ↔ v ∈ T) ∧
      (B'.marg (Dict.keys ev) (asg ev) = 0 → ∀ obs, FullObs r.dom obs → r.getValue obs = .ok (.fin 0)) ∧
      (B'.marg (Dict.keys ev) (asg ev) ≠ 0 → ∀ obs, FullObs r.dom obs → r.getValue obs =
        .ok (.fin (B'.marg (T ++ Dict.keys ev) (asg (ev ++ obs)) / B'.marg (Dict.keys ev) (asg ev)))) := by
  have hI := storeOf_lawful (V := V) (S := S) (α := Fl K) .numpy
  obtain ⟨m', r, h1, h2, h3, h4, h5, h6, h7, h8⟩ := ve_core hI hch hr hB hn hq.nodes hq.nodup hq.nonempty hq.evidence
    hq.disjoint
  obtain ⟨v1, v2⟩ := pruned_valid hr hB hn hq.nodes hq.evidence
  have hTg : ∀ t ∈ T, t ∈ o.model.graph.nodes := fun t ht => hr.nodes ▸ hq.nodes t ht
  obtain ⟨M, P, hs⟩ := irrelevant_spec hr.wf (hr.acyclic hB) (E := Dict.keys ev) hTg
  have hclosed : ∀ v ∈ kept o.model.graph T ev, ∀ p ∈ B.parents v, p ∉ Dict.keys ev → p ∈ kept o.model.graph T ev :=
    fun v hv p hp hk => hs.keep v hv p ((hr.parents v (hr.nodes ▸ (List.mem_filter.1 hv).1) p).1 hp) hk
  have hden : ∀ a : V → S, (prunedBN B o.model.graph T ev).marg (Dict.keys ev) (asg ev) = veDen B o.model.graph T ev a := by
    intro a
    have := pruned_marg hr hB (T := T) (W := []) hq.evidence (a := a) (by simp) hclosed
    simp only [List.nil_append] at this
    rw [veDen, ← this]
    exact v1.marg_dep _ _ _ fun v hv => over_agree (vs := []) (by simp) v (by simpa using hv)
  refine ⟨m', prunedBN B o.model.graph T ev, r, h1, h2, v1, ?_, h6, ?_, ?_⟩
  · rw [VEObj.query_ok o hev hq.nodup hq.disjoint (hq.names hr) h1]; exact h3
  · intro hz obs ho
    have hst : ∀ t ∈ T, (asg obs : V → S) t ∈ B.states t := fun t ht =>
      Factor.states_of_inDom h5 ho.inDom t ((h6 t).2 ht)
    rw [hden (asg obs)] at hz
    rw [Factor.getValue_full hI h4 ho, h8 _ hst, hz, veNum_zero hr hB hnn hq.nodes hq.nodup hq.disjoint hst hz,
      Fl.zero_div_zero]
    rfl
  · intro hz obs ho
    have hst : ∀ t ∈ T, (asg obs : V → S) t ∈ B.states t := fun t ht =>
      Factor.states_of_inDom h5 ho.inDom t ((h6 t).2 ht)
    have hnum := pruned_marg hr hB (T := T) (W := T) hq.evidence hst hclosed
    rw [hden (asg obs)] at hz ⊢
    rw [Factor.getValue_full hI h4 ho, h8 _ hst, Fl.fin_div hz, asg_append, hnum]
    rfl

/-- `A → B` where `B` is never `b`. -/
def gEx3 : DiGraph Char := ⟨['A', 'B'], [('A', 'B')]⟩
def rowsEx3 : List Row :=
  [([('A', ['a', 'b'])], [q (1/2), q (1/2)], 'A'), ([('B', ['a', 'b']), ('A', ['a', 'b'])], [q 1, q 1, q 0, q 0], 'B')]

/-- The evidence `B = b` is impossible and stays in the pruned model. -/
example : netCheck .numpy gEx3 rowsEx3 = true ∧ (do
    let m ← netOf .numpy gEx3 rowsEx3
    let r ← ((VEObj.new m : VEObj _ (IQ .numpy)).query chEx ['A'] (some [('B', 'b')])).2
    r.valuesList) = .ok [q 0, q 0] := by decide +kernel

/-! ### C41 -/

/-- **C41** (partial) repeated targets and overlaps are refused without changing the object; unknown names are refused
and leave the pruned model and the flag `_compiled` as they were, but not the recorded target and evidence (see
`C41_stale_answer`).  In conditional queries repeated targets are not refused (see `C41_repeated_conditional`). -/
theorem C41_refused_partial (ch : Choices V) (o : VEObj F (storeOf vt : StoreImpl V S (Fl K))) (T C : List V)
    (e : Option (Obs V S)) :
    (¬ T.Nodup → o.query ch T e = (o, .error .valueError)) ∧
    ((∃ t ∈ T, t ∈ Dict.keys (e.getD [])) → o.query ch T e = (o, .error .valueError)) ∧
    ((∃ t ∈ T, t ∈ C) → o.queryCond ch T C e = (o, .error .valueError)) ∧
    (T.Nodup → (∀ t ∈ T, t ∉ Dict.keys (e.getD [])) → (∃ v ∈ T ++ Dict.keys (e.getD []), v ∉ o.model.graph.nodes) →
      (o.query ch T e).2 = .error .nodeNotFound ∧ (o.query ch T e).1.model = o.model ∧
        (o.query ch T e).1.compiled = o.compiled ∧ (o.query ch T e).1.infModel = o.infModel) := by
  refine ⟨?_, ?_, ?_, ?_⟩
  · intro h
    rw [VEObj.query, VEObj.compile, if_pos h]
  · rintro ⟨t, h1, h2⟩
    rw [VEObj.query, VEObj.compile]
    by_cases hn : T.Nodup
    · have : ¬ ∀ t ∈ T, t ∉ Dict.keys (e.getD []) := fun hc => hc t h1 h2
      rw [if_neg (not_not.2 hn)]
      simp only
      rw [if_pos this]
    · rw [if_pos hn]
  · rintro ⟨t, h1, h2⟩
    have : ¬ ∀ t ∈ T, t ∉ C := fun hc => hc t h1 h2
    rw [VEObj.queryCond, if_pos this]
  · rintro hn hd ⟨v, h1, h2⟩
    have : ¬ ∀ v ∈ T ++ Dict.keys (e.getD []), v ∈ o.model.graph.nodes := fun hc => h2 (hc v h1)
    have hc : o.compile T (some (e.getD [])) = ({ o with target := some T, evidence := e.getD [] }, .error .nodeNotFound) := by
      rw [VEObj.compile, if_neg (not_not.2 hn)]
      simp only
      rw [if_neg (not_not.2 hd), if_pos this]
    rw [VEObj.query, hc]
    exact ⟨rfl, rfl, rfl, rfl⟩

/-- After a good query for `C`, the query for `B` with evidence on `D` and on the unknown name `X` is refused, but the
object has recorded its target and evidence and is still marked as compiled: `run` then answers from the model that was
pruned for `C`, which no longer contains `D`.  It returns P(B), in every store, instead of refusing. -/
theorem C41_stale_answer (vt : VType) : (do
    let m ← netOf vt gEx rowsEx
    let o := ((VEObj.new m : VEObj _ (IQ vt)).query chEx ['C'] none).1
    let p := o.query chEx ['B'] (some [('D', 'a'), ('X', 'x')])
    let r ← p.1.run chEx
    let y ← r.valuesList
    return (p.2.toOption.isSome, y)) = .ok (false, [q (5/8), q (3/8)]) := by cases vt <;> decide +kernel

/-- The evidence on `D` alone matters: P(B | D = a) is not the answer above. -/
example (vt : VType) : (do
    let m ← netOf vt gEx rowsEx
    let r ← ((VEObj.new m : VEObj _ (IQ vt)).query chEx ['B'] (some [('D', 'a')])).2
    r.valuesList) = .ok [q (4/7), q (3/7)] := by cases vt <;> decide +kernel

/-- A conditional query with a repeated target is answered (list store). -/
theorem C41_repeated_conditional : (do
    let m ← netOf .list gEx rowsEx
    let r ← ((VEObj.new m : VEObj _ (IQ .list)).queryCond chEx ['C', 'C'] ['B'] none).2
    r.getValue [('C', 'e'), ('B', 'b')]) = .ok (q (1/2)) := by decide +kernel

/-- Each refusal happens. -/
example : (do
    let m ← netOf .numpy gEx rowsEx
    let o : VEObj _ (IQ .numpy) := VEObj.new m
    return ((o.query chEx ['C', 'C'] none).2.toOption.isSome, (o.query chEx ['C'] (some [('C', 'c')])).2.toOption.isSome,
      (o.queryCond chEx ['C'] ['C'] none).2.toOption.isSome, (o.query chEx ['X'] none).2.toOption.isSome)) =
    (.ok (false, false, false, false) : Py _) := by decide +kernel

/-! ### C15, last clause -/

/-- **C15** multiply the tables of any set `L` of nodes of a network and sum out all of `L`: the result has no left
variable and is identically one. -/
theorem C15_summed_out_is_one {B : BN V S K} (hB : B.Valid) (hn : B.Normalised) {L : List V} (hL : L ≠ [])
    (hLn : L.Nodup) (hLB : ∀ v ∈ L, v ∈ B.nodes) {tab : V → Factor (storeOf vt : StoreImpl V S (Fl K))}
    (ht : ∀ v ∈ L, IsTable B v (tab v)) :
    ∃ j r, Factor.combineAll (L.map tab) = .ok j ∧ j.marginalize L = .ok r ∧ r.WF ∧ r.leftVars = [] ∧
      ∀ obs, FullObs r.dom obs → r.getValue obs = .ok (.fin 1) := by
  have hI := storeOf_lawful (V := V) (S := S) (α := Fl K) vt
  obtain ⟨j, j1, j2, j3, j4⟩ := Factor.Rep.combineAll hI tab B.ctab L hL fun v hv => (ht v hv).rep hI hB (hLB v hv)
  obtain ⟨r, r1, r2, _, _, r5⟩ := j2.marginalize hI (xs := L)
    (fun v hv => (j3 v).2 ⟨v, hv, ((ht v hv).vars v).2 (.inl rfl)⟩) hLn
  refine ⟨j, r, j1, r1, r2.wf, List.eq_nil_iff_forall_not_mem.2 fun v hv => ?_, fun obs ho => ?_⟩
  · obtain ⟨h1, h2⟩ := (r5 v).1 hv
    obtain ⟨u, hu, h3⟩ := (j4 v).1 h1
    rw [((ht u hu).left v).1 h3] at h2
    exact h2 hu
  · rw [r2.getValue hI ho]
    have := Tables.sum_one ((hB.tables hn).sublist hLn hLB) (asg obs)
    exact congrArg (fun x => Except.ok (Fl.fin x)) this

end Verif.Props
