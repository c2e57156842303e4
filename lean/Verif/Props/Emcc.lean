import Verif.Learn.EMScmLemmas
import Verif.Props.Learning
import Verif.Props.Likelihood
import Verif.Props.Random
import Verif.Props.Causal
import Verif.Props.Interval

/-!
# C81: expectation maximisation for causal computing, from the records to the bounds

`EMCC` draws distributions of the exogenous variables at random, fits them to the records by expectation maximisation, does
so several times, and answers a query with the bounds of the answers of the fitted models.
-/

set_option linter.unusedSectionVars false
set_option linter.unusedSimpArgs false

namespace Verif
namespace Props

variable {V S K : Type} [DecidableEq V] [DecidableEq S] [Inhabited S] [Field K] [LinearOrder K] [IsStrictOrderedRing K]
variable {vt : VType}

local notation "II" => (storeOf vt : StoreImpl V S (Fl K))
local notation "LL" => (labelStoreOf vt : LabelStore V S)

/-! ### What is required and what is obtained -/

/-- Records for a causal model with the equations of `B`: none of them observes an exogenous variable, each observes something
that depends on it, and each can be the outcome of the equations. -/
structure EmccData (m : SCM II LL) (B : BN V S K) (fr : Frame V S) : Prop where
  data : RootData B m.base.graph fr m.exogenous
  outcome : ∀ r ∈ fr.rows, ∃ a, B.InStates a ∧ (∀ v ∈ m.endogenous, B.table v a ≠ 0) ∧ ∀ v s, Rec.val r v = some s → a v = s

/-- The model `m'` has the graph, the states and the equations of `m`; its tables are those of the network `B'`, which are
distributions. -/
structure Refit (m : SCM II LL) (B : BN V S K) (m' : SCM II LL) (B' : BN V S K) : Prop where
  rep : m'.Rep B'
  valid : B'.Valid
  norm : B'.Normalised
  nonneg : B'.NonNeg
  nodes : B'.nodes = B.nodes
  parents : B'.parents = B.parents
  states : B'.states = B.states
  equations : ∀ v ∈ m.endogenous, v ∈ B.nodes → B'.table v = B.table v
  graph : m'.base.graph = m.base.graph
  endogenous : m'.endogenous = m.endogenous
  slots : ∀ v ∈ m.endogenous, v ∈ B.nodes → Dict.get? m'.base.factors v = Dict.get? m.base.factors v

/-! ### Models without deterministic factors -/

theorem exists_lift {m : SCM II LL} {B : BN V S K} (h : m.Rep B) (hm : m.Multi) :
    ∃ b : DagModel (Factor II) V S, m = liftScm LL m.endogenous m.cast b ∧ Represents b B := by
  have hk : (Dict.keys m.base.factors).Nodup := by rw [h.keys]; exact h.wf.nodes
  let un : Option (AnyFactor II LL) → Option (Factor II) := fun o => match o with
    | some (.multi f) => some f
    | _ => none
  let b : DagModel (Factor II) V S := ⟨m.base.graph, m.base.factors.map fun p => (p.1, un p.2), m.base.domains, m.base.check⟩
  have hslots : b.factors.map (liftSlot (L := LL)) = m.base.factors := by
    show (m.base.factors.map fun p => (p.1, un p.2)).map (liftSlot (L := LL)) = m.base.factors
    rw [List.map_map]
    conv_rhs => rw [← List.map_id m.base.factors]
    refine List.map_congr_left fun p hp => ?_
    have hg := Dict.get?_of_mem hk hp
    have hv : p.1 ∈ B.nodes := by rw [← h.nodes, ← h.keys]; exact Dict.mem_keys_of_mem hp
    obtain ⟨f, f1, f2⟩ := h.table _ hv
    have e : p.2 = some f := by
      have : some p.2 = some (some f) := hg.symm.trans f1
      exact Option.some.inj this
    have hd := hm _ _ f1
    obtain ⟨v, o⟩ := p
    simp only at e
    subst e
    cases f with
    | det _ => cases hd
    | multi g => rfl
  refine ⟨b, ?_, h.wf, h.nodes, h.parents, ?_, fun v hv => ?_⟩
  · show m = ⟨⟨m.base.graph, b.factors.map (liftSlot (L := LL)), m.base.domains, m.base.check⟩, m.endogenous, m.cast⟩
    rw [hslots]
  · rw [← keys_lift (L := LL), hslots]; exact h.keys
  · obtain ⟨f, f1, f2⟩ := h.table v hv
    have hd := hm _ _ f1
    cases f with
    | det _ => cases hd
    | multi g =>
      rw [← hslots, get?_lift] at f1
      rcases hb : Dict.get? b.factors v with _ | _ | g'
      · rw [hb] at f1; cases f1
      · rw [hb] at f1; cases f1
      · rw [hb] at f1
        have f1 : some (some (AnyFactor.multi (L := LL) g')) = some (some (.multi g)) := f1
        injection f1 with f1
        injection f1 with f1
        injection f1 with f1
        subst f1
        exact ⟨g', g', rfl, rfl, f2⟩

theorem rep_lift {endo : List V} {cast : Bool} {b : DagModel (Factor II) V S} {B : BN V S K} (h : Represents b B) (he : endo ≠ [])
    (heq : ∀ v ∈ endo, v ∈ B.nodes → ∀ a, B.InStates a → B.table v a = 0 ∨ B.table v a = 1) :
    (liftScm LL endo cast b).Rep B ∧ (liftScm LL endo cast b).Multi := by
  have hmu : (liftScm LL endo cast b).Multi := by
    intro v f hf
    have hf : Dict.get? (b.factors.map (liftSlot (L := LL))) v = some (some f) := hf
    rw [get?_lift] at hf
    rcases hb : Dict.get? b.factors v with _ | _ | g
    · rw [hb] at hf; cases hf
    · rw [hb] at hf; cases hf
    · rw [hb] at hf
      injection hf with hf
      injection hf with hf
      rw [← hf]; rfl
  refine ⟨⟨h.wf, h.nodes, h.parents, (keys_lift _).trans h.keys, fun v hv => ?_, heq, fun _ v _ f hf => hmu v f hf, fun e => absurd e he⟩, hmu⟩
  obtain ⟨f, g, h1, h2, h3⟩ := h.table v hv
  injection h2 with h2
  subst h2
  refine ⟨.multi f, ?_, h3⟩
  show Dict.get? (b.factors.map (liftSlot (L := LL))) v = _
  rw [get?_lift, h1]; rfl

/-! ### The runs on networks, once more with the data they leave -/

theorem em_run {ch : Choices V} (hch : ch.Ok) (kl : List (Fl K) → List (Fl K) → Bool) {prior : DagModel (Factor II) V S} {B : BN V S K}
    (hr : Represents prior B) (hB : B.Valid) (hn : B.Normalised) (hnn : B.NonNeg)
    (hdom : ∀ v ∈ B.nodes, Dict.get? prior.domains v = some (some (B.states v)))
    {T : List V} (hT : T ≠ []) {fr : Frame V S} (hd : RootData B prior.graph fr T) (hpos : ∀ r ∈ fr.rows, Possible B r) (n : ℕ) :
    ∃ s', (EM.learner ch kl).runF fr n ⟨EM.new prior (some T), none⟩ = .ok s' ∧ s'.core.data = EM.addMissing B.nodes fr ∧
      s'.core.model.graph = prior.graph ∧
      (∃ B', EM.Net B T fr.rows B' ∧ Represents s'.core.model B' ∧ ∀ v ∈ B.nodes, v ∉ T → Dict.get? s'.core.model.factors v = Dict.get? prior.factors v) ∧
      ∀ m ∈ (EM.learner ch kl).evolution s', EM.Learnt prior B T m := by
  have heff : EM.effective (EM.new prior (some T)).trainable B.nodes fr = T := by
    rw [EM.effective, EM.new]; exact if_neg hT
  obtain ⟨c, c1, c2⟩ := EM.ObjOk.init (ch := ch) (kl := kl) (s := ⟨EM.new prior (some T), none⟩) hr hB hn hnn hpos rfl heff (by intro l hl; cases hl)
  obtain ⟨s', s1, s2⟩ := c2.loopF hch (priorOk_of hr hdom) (hd.addMissing hB.nodes) n
  obtain ⟨B', b1, b2, b3⟩ := s2.core.model
  refine ⟨s', ?_, s2.core.data, s2.core.graph, ⟨B', ⟨b1.valid, b1.norm, b1.nonneg, b1.nodes, b1.parents, b1.states, b1.same, fun r hr => ?_⟩,
    b2, b3⟩, s2.evo⟩
  · rw [Learner.runF, c1, py_ok_bind]
    exact s1
  · obtain ⟨a, a1, a2, a3⟩ := b1.possible _ (List.mem_map.2 ⟨r, hr, rfl⟩)
    exact ⟨a, a1, a2, fun v s hs => a3 v s (by rw [val_missing]; exact hs)⟩

/-! ### One model -/

theorem mem_exogenous {m : SCM II LL} {B : BN V S K} (h : m.Rep B) {v : V} : v ∈ m.exogenous ↔ v ∈ B.nodes ∧ v ∉ m.endogenous := by
  rw [SCM.exogenous, List.mem_filter, h.nodes]; simp

theorem RootData.congr {B B' : BN V S K} {g : DiGraph V} {fr : Frame V S} {T : List V} (h : RootData B g fr T) (h1 : B'.nodes = B.nodes)
    (h2 : B'.parents = B.parents) (h3 : B'.states = B.states) : RootData B' g fr T :=
  ⟨h.wf, h.rows, by rw [h1]; exact h.cols, by rw [h3]; exact h.states, by rw [h1]; exact h.nodes, by rw [h2]; exact h.roots, h.hidden,
    h.connected⟩

theorem EmccData.endo {m : SCM II LL} {B : BN V S K} {fr : Frame V S} (hd : EmccData m B fr) (h : m.Rep B) (hx : m.exogenous ≠ []) :
    m.endogenous ≠ [] := by
  obtain ⟨u, hu⟩ := List.exists_mem_of_ne_nil _ hx
  obtain ⟨r, hr⟩ := List.exists_mem_of_ne_nil _ hd.data.rows
  obtain ⟨w, hw, _⟩ := hd.data.connected u hu r hr
  intro he
  rw [observed_eq hd.data.wf.nodup (hd.data.wf.keys r hr)] at hw
  obtain ⟨hw1, hw2⟩ := List.mem_filter.1 hw
  have hwn : w ∈ B.nodes := hd.data.cols w hw1
  have hv : Rec.val r w ≠ none := by
    intro e
    rw [e] at hw2
    simp at hw2
  exact hv (hd.data.hidden w ((mem_exogenous h).2 ⟨hwn, by simp [he]⟩) r hr)

/-- The distributions of the exogenous variables that are drawn, as the prior of a network -/
theorem emcc_prior {m : SCM II LL} {B : BN V S K} (h : m.Rep B) (hB : B.Valid) (hn : B.Normalised) (hnn : B.NonNeg) (hcast : m.cast = true)
    (hk : DagModel.Known m.base.graph B.states m.base)
    (hdoms : ∀ v ∈ B.nodes, Dict.get? m.base.domains v = some (some (B.states v)))
    {fr : Frame V S} (hout : ∀ r ∈ fr.rows, ∃ a, B.InStates a ∧ (∀ v ∈ m.endogenous, B.table v a ≠ 0) ∧ ∀ v s, Rec.val r v = some s → a v = s)
    {t : V → List K} (ht : ∀ x ∈ m.exogenous, Draws false (famDom m.base.graph B.states x) (m.base.graph.pred x) (t x)) :
    ∃ (b : DagModel (Factor II) V S) (B₀ : BN V S K),
      m.randomizeFactors m.exogenous false false (fun x => (t x).map Fl.fin) = .ok (liftScm LL m.endogenous m.cast b) ∧
      Represents b B₀ ∧ Refit m B (liftScm LL m.endogenous m.cast b) B₀ ∧
      (∀ v ∈ B₀.nodes, Dict.get? b.domains v = some (some (B₀.states v))) ∧ b.graph = m.base.graph ∧
      (∀ r ∈ fr.rows, Possible B₀ r) ∧ Dict.keys b.domains = b.graph.nodes ∧ (liftScm LL m.endogenous m.cast b).Multi := by
  obtain ⟨m1, T, r1, r2, r3, r4, r5, r6, r7, r8, r9, r10, r11, r12, r13⟩ := C80_randomize h hB hk hdoms (xs := m.exogenous)
    (fun x hx => (mem_exogenous h).1 hx) false false ht
  have hm1 : m1.Multi := by
    intro v f hf
    by_cases hv : v ∈ m.exogenous
    · exact r11 v hv f hf
    · have hvn : v ∈ B.nodes := by
        have := Dict.mem_keys_of_mem (Dict.mem_of_get? hf)
        rw [r2.keys, r2.nodes] at this
        exact this
      have hve : v ∈ m.endogenous := by
        by_contra hc
        exact hv ((mem_exogenous h).2 ⟨hvn, hc⟩)
      exact r2.casted (r7.trans hcast) v (r6 ▸ hve) f hf
  obtain ⟨b, b1, b2⟩ := exists_lift r2 hm1
  rw [r6, r7] at b1
  subst b1
  refine ⟨b, _, r1, b2, ⟨r2, r3, r4 hn, r5 hnn, rfl, rfl, rfl, fun v hv _ => ?_, r9, rfl, fun v hv hvn => r8 v ?_⟩, r10, r9, fun r hr => ?_,
    r13.keys.trans (congrArg _ r9.symm), hm1⟩
  · show (fun a => (if v ∈ m.exogenous then T v else B.table v) a) = _
    rw [if_neg fun hc => ((mem_exogenous h).1 hc).2 hv]
  · exact fun hc => ((mem_exogenous h).1 hc).2 hv
  · obtain ⟨a, a1, a2, a3⟩ := hout r hr
    refine ⟨a, a1, List.prod_pos fun x hx => ?_, a3⟩
    obtain ⟨v, hv, rfl⟩ := List.mem_map.1 hx
    show 0 < (if v ∈ m.exogenous then T v else B.table v) a
    by_cases hve : v ∈ m.exogenous
    · rw [if_pos hve]; exact r12 rfl v hve a a1
    · rw [if_neg hve]
      have he : v ∈ m.endogenous := by
        by_contra hc
        exact hve ((mem_exogenous h).2 ⟨hv, hc⟩)
      rcases h.equations v he hv a a1 with e | e
      · exact absurd e (a2 v he)
      · rw [e]; exact one_pos

theorem degenerate_slots {endo : List V} {cast : Bool} {b : DagModel (Factor II) V S} {B : BN V S K} (h : (liftScm LL endo cast b).Rep B)
    (hB : B.Valid) : ∀ p ∈ b.factors, p.1 ∈ endo → ∃ f, p.2 = some f ∧ f.isDegenerate = .ok true := by
  intro p hp hpe
  have hkeys : Dict.keys b.factors = b.graph.nodes := (keys_lift (L := LL) _).symm.trans h.keys
  have hv : p.1 ∈ B.nodes := by
    have := Dict.mem_keys_of_mem hp
    rw [hkeys] at this
    exact h.nodes ▸ this
  obtain ⟨f, f1, f2⟩ := h.table _ hv
  have f1 : Dict.get? (b.factors.map (liftSlot (L := LL))) p.1 = some (some f) := f1
  rw [get?_lift, Dict.get?_of_mem (hkeys ▸ h.wf.nodes) hp] at f1
  rcases hp2 : p.2 with _ | g
  · rw [hp2] at f1; cases f1
  · rw [hp2] at f1
    injection f1 with f1
    injection f1 with f1
    subst f1
    exact ⟨g, rfl, IsTable.isDegenerate hB hv f2 (h.equations _ hpe hv)⟩

theorem Refit.learnt {m : SCM II LL} {B : BN V S K} {b b' : DagModel (Factor II) V S} {B₀ B' : BN V S K} (hm : m.Rep B)
    (he : m.endogenous ≠ []) (h : Refit m B (liftScm LL m.endogenous m.cast b) B₀) (hg : b'.graph = b.graph) (l1 : Represents b' B')
    (l2 : B'.Valid) (l3 : B'.Normalised) (l4 : B'.NonNeg) (l5 : B'.nodes = B₀.nodes) (l6 : B'.parents = B₀.parents)
    (l7 : B'.states = B₀.states) (l8 : ∀ v ∈ B₀.nodes, v ∉ m.exogenous → B'.table v = B₀.table v)
    (l9 : ∀ v ∈ B₀.nodes, v ∉ m.exogenous → Dict.get? b'.factors v = Dict.get? b.factors v) :
    Refit m B (liftScm LL m.endogenous m.cast b') B' ∧ (liftScm LL m.endogenous m.cast b').Multi := by
  have hnot : ∀ v ∈ m.endogenous, v ∉ m.exogenous := fun v hv hc => ((mem_exogenous hm).1 hc).2 hv
  have heq : ∀ v ∈ m.endogenous, v ∈ B.nodes → B'.table v = B.table v := fun v hv hvn =>
    (l8 v (h.nodes ▸ hvn) (hnot v hv)).trans (h.equations v hv hvn)
  have hrl := rep_lift (cast := m.cast) l1 he fun v hv hvn a ha => by
    have hvn' : v ∈ B.nodes := by rw [← h.nodes, ← l5]; exact hvn
    rw [heq v hv hvn']
    refine hm.equations v hv hvn' a fun w hw => ?_
    have := ha w (by rw [l5, h.nodes]; exact hw)
    rw [l7, h.states] at this
    exact this
  refine ⟨⟨hrl.1, l2, l3, l4, l5.trans h.nodes, l6.trans h.parents, l7.trans h.states, heq, hg.trans h.graph, rfl,
    fun v hv hvn => ?_⟩, hrl.2⟩
  rw [← h.slots v hv hvn]
  show Dict.get? (b'.factors.map (liftSlot (L := LL))) v = Dict.get? (b.factors.map (liftSlot (L := LL))) v
  rw [get?_lift, get?_lift, l9 v (h.nodes ▸ hvn) (hnot v hv)]

/-- **C81** one run: whatever is drawn and whatever the stopping rule decides, the distributions of the exogenous variables are
fitted and the result is a causal model with the same graph, states and equations, in which each of the records can happen. -/
theorem C81_single {ch : Choices V} (hch : ch.Ok) (kl : List (Fl K) → List (Fl K) → Bool) {m : SCM II LL} {B : BN V S K} (h : m.Rep B)
    (hB : B.Valid) (hn : B.Normalised) (hnn : B.NonNeg) (hcast : m.cast = true)
    (hk : DagModel.Known m.base.graph B.states m.base)
    (hdoms : ∀ v ∈ B.nodes, Dict.get? m.base.domains v = some (some (B.states v)))
    (hx : m.exogenous ≠ []) {fr : Frame V S} (hd : EmccData m B fr) {t : V → List K}
    (ht : ∀ x ∈ m.exogenous, Draws false (famDom m.base.graph B.states x) (m.base.graph.pred x) (t x)) (n : ℕ) :
    ∃ o B', Emcc.singleGenerate ch kl m m.exogenous n fr (fun x => (t x).map Fl.fin) = .ok o ∧
      o.core.data = EM.addMissing B.nodes fr ∧ Refit m B o.core.model B' ∧ o.core.model.Multi ∧ ∀ r ∈ fr.rows, Possible B' r := by
  obtain ⟨b, B₀, p1, p2, p3, p4, p5, p6, _⟩ := emcc_prior h hB hn hnn hcast hk hdoms hd.outcome ht
  have he := hd.endo h hx
  obtain ⟨s', s1, s2, s3, s4, _⟩ := em_run hch kl p2 p3.valid p3.norm p3.nonneg p4 hx
    (p5 ▸ RootData.congr hd.data p3.nodes p3.parents p3.states) p6 n
  obtain ⟨B', l1, l2, l3⟩ := s4
  obtain ⟨b2, b3⟩ := p3.learnt h he s3 l2 l1.valid l1.norm l1.nonneg l1.nodes l1.parents l1.states l1.same l3
  refine ⟨ScmEM.liftObj LL m.endogenous m.cast s', B', ?_, ?_, b2, b3, l1.possible⟩
  · rw [Emcc.singleGenerate, p1, py_ok_bind]
    have := ScmEM.runF_lift (L := LL) (ch := ch) (kl := kl) (cast := m.cast) he ⟨EM.new b (some m.exogenous), none⟩ fr n (degenerate_slots p3.rep p3.valid)
    rw [s1] at this
    exact this
  · rw [← p3.nodes]; exact s2

/-- **C81 (partial)** the fitted model gives the records at least the probability that the drawn one gives them, when the same
columns are observed in all records.  (The full statement has no such condition; it is false, see `C58_mixed`.) -/
theorem C81_likelihood_partial [Archimedean K] {ch : Choices V} (hch : ch.Ok) (kl : List (Fl K) → List (Fl K) → Bool) {m : SCM II LL} {B : BN V S K} (h : m.Rep B)
    (hB : B.Valid) (hn : B.Normalised) (hnn : B.NonNeg) (hcast : m.cast = true)
    (hk : DagModel.Known m.base.graph B.states m.base)
    (hdoms : ∀ v ∈ B.nodes, Dict.get? m.base.domains v = some (some (B.states v)))
    (hx : m.exogenous ≠ []) {fr : Frame V S} (hd : EmccData m B fr) {t : V → List K}
    (ht : ∀ x ∈ m.exogenous, Draws false (famDom m.base.graph B.states x) (m.base.graph.pred x) (t x))
    (hu : ∀ r ∈ fr.rows, ∀ r' ∈ fr.rows, Rec.observed r = Rec.observed r') (n : ℕ) :
    ∃ m₀ B₀ o B', m.randomizeFactors m.exogenous false false (fun x => (t x).map Fl.fin) = .ok m₀ ∧ Refit m B m₀ B₀ ∧
      Emcc.singleGenerate ch kl m m.exogenous n fr (fun x => (t x).map Fl.fin) = .ok o ∧ Refit m B o.core.model B' ∧
      likelihood B₀ fr.rows ≤ likelihood B' fr.rows := by
  obtain ⟨b, B₀, p1, p2, p3, p4, p5, p6, _⟩ := emcc_prior h hB hn hnn hcast hk hdoms hd.outcome ht
  have he := hd.endo h hx
  have hrd : RootData B₀ b.graph fr m.exogenous := p5 ▸ RootData.congr hd.data p3.nodes p3.parents p3.states
  obtain ⟨s', s1, _, s3, ⟨_, _, _, l9⟩, _⟩ := em_run hch kl p2 p3.valid p3.norm p3.nonneg p4 hx hrd p6 n
  obtain ⟨s'', B', q1, l1, l2, l3, l4, l5, l6, l7, l8, q2⟩ := C58_end_partial hch kl p2 p3.valid p3.norm p3.nonneg p4 hx hrd p6 hu n
  rw [s1] at q1
  injection q1 with q1
  subst q1
  obtain ⟨b2, b3⟩ := p3.learnt h he s3 l1 l2 l3 l4 l5 l6 l7 l8 l9
  refine ⟨_, B₀, ScmEM.liftObj LL m.endogenous m.cast s', B', p1, p3, ?_, b2, q2⟩
  rw [Emcc.singleGenerate, p1, py_ok_bind]
  have := ScmEM.runF_lift (L := LL) (ch := ch) (kl := kl) (cast := m.cast) he ⟨EM.new b (some m.exogenous), none⟩ fr n (degenerate_slots p3.rep p3.valid)
  rw [s1] at this
  exact this

/-! ### Several models -/

theorem addMissing_idem (vs : List V) (fr : Frame V S) : EM.addMissing vs (EM.addMissing vs fr) = EM.addMissing vs fr := by
  have hf : (vs.filter fun v => v ∉ (EM.addMissing vs fr).cols) = [] := by
    rw [List.filter_eq_nil_iff]
    intro v hv
    have : v ∈ (EM.addMissing vs fr).cols := by
      by_cases hc : v ∈ fr.cols
      · exact List.mem_append_left _ hc
      · exact List.mem_append_right _ (List.mem_filter.2 ⟨hv, by simpa using hc⟩)
    simpa using this
  conv_lhs => rw [EM.addMissing]
  simp only [hf, List.append_nil, List.map_nil, List.map_id']

theorem EmccData.addMissing {m : SCM II LL} {B : BN V S K} {fr : Frame V S} (h : EmccData m B fr) (hB : B.Valid) :
    EmccData m B (EM.addMissing B.nodes fr) := by
  refine ⟨h.data.addMissing hB.nodes, fun r' hr' => ?_⟩
  obtain ⟨r, hr, rfl⟩ := List.mem_map.1 hr'
  obtain ⟨a, a1, a2, a3⟩ := h.outcome r hr
  exact ⟨a, a1, a2, fun v s hs => a3 v s (by rw [val_missing] at hs; exact hs)⟩

theorem possible_addMissing {B' : BN V S K} {vs : List V} {fr : Frame V S} (h : ∀ r ∈ (EM.addMissing vs fr).rows, Possible B' r) :
    ∀ r ∈ fr.rows, Possible B' r := by
  intro r hr
  obtain ⟨a, a1, a2, a3⟩ := h _ (List.mem_map.2 ⟨r, hr, rfl⟩)
  exact ⟨a, a1, a2, fun v s hs => a3 v s (by rw [val_missing]; exact hs)⟩

/-- **C81** the aggregator: one fitted model for each draw of the exogenous distributions; all of them have the graph, the states
and the equations of the given model, and each of the records can happen in all of them. -/
theorem C81_generate {ch : Choices V} (hch : ch.Ok) (kl : List (Fl K) → List (Fl K) → Bool) {m : SCM II LL} {B : BN V S K} (h : m.Rep B)
    (hB : B.Valid) (hn : B.Normalised) (hnn : B.NonNeg) (hcast : m.cast = true)
    (hk : DagModel.Known m.base.graph B.states m.base)
    (hdoms : ∀ v ∈ B.nodes, Dict.get? m.base.domains v = some (some (B.states v)))
    (hx : m.exogenous ≠ []) {fr : Frame V S} (hd : EmccData m B fr) {ts : List (V → List K)} (hts : ts ≠ [])
    (ht : ∀ t ∈ ts, ∀ x ∈ m.exogenous, Draws false (famDom m.base.graph B.states x) (m.base.graph.pred x) (t x)) (n : ℕ) :
    ∃ os Bs, Emcc.generate ch kl m n fr (ts.map fun t x => (t x).map Fl.fin) = .ok (EM.addMissing B.nodes fr, os) ∧ os.length = ts.length ∧
      List.Forall₂ (fun o B' => Refit m B o.core.model B' ∧ o.core.model.Multi ∧ ∀ r ∈ fr.rows, Possible B' r) os Bs := by
  have hgen : ∀ (ts : List (V → List K)), (∀ t ∈ ts, ∀ x ∈ m.exogenous, Draws false (famDom m.base.graph B.states x) (m.base.graph.pred x) (t x)) →
      ∀ (fr' : Frame V S), EmccData m B fr' → EM.addMissing B.nodes fr' = EM.addMissing B.nodes fr → (ts = [] → fr' = EM.addMissing B.nodes fr) →
      (∀ B' : BN V S K, (∀ r ∈ fr'.rows, Possible B' r) → ∀ r ∈ fr.rows, Possible B' r) →
      ∀ os0 : List (LObj (ScmEM II LL) (SCM II LL)), ∃ os Bs,
        (ts.map fun t x => (t x).map Fl.fin).foldlM (Emcc.generateOne ch kl m m.exogenous n) (fr', os0) =
          .ok (EM.addMissing B.nodes fr, os0 ++ os) ∧ os.length = ts.length ∧
        List.Forall₂ (fun o B' => Refit m B o.core.model B' ∧ o.core.model.Multi ∧ ∀ r ∈ fr.rows, Possible B' r) os Bs := by
    intro ts
    induction ts with
    | nil =>
      intro _ fr' _ _ h0 _ os0
      exact ⟨[], [], by rw [h0 rfl, List.append_nil]; rfl, rfl, .nil⟩
    | cons t ts ih =>
      intro ht fr' hd' hfr _ hpos os0
      obtain ⟨o, B', o1, o2, o3, o4, o5⟩ := C81_single hch kl h hB hn hnn hcast hk hdoms hx hd' (ht t List.mem_cons_self) n
      obtain ⟨os, Bs, i1, i2, i3⟩ := ih (fun t h => ht t (List.mem_cons_of_mem _ h)) (EM.addMissing B.nodes fr) (hd.addMissing hB)
        (addMissing_idem _ _) (fun _ => rfl) (fun B' hB' => possible_addMissing hB') (os0 ++ [o])
      refine ⟨o :: os, B' :: Bs, ?_, by simp [i2], .cons ⟨o3, o4, hpos B' o5⟩ i3⟩
      rw [List.map_cons, List.foldlM_cons, Emcc.generateOne]
      simp only [o1, py_ok_bind]
      rw [o2, hfr]
      refine i1.trans ?_
      rw [List.append_assoc]
      rfl
  obtain ⟨os, Bs, g1, g2, g3⟩ := hgen ts ht fr hd rfl (fun e => absurd e hts) (fun _ h => h) []
  refine ⟨os, Bs, ?_, g2, g3⟩
  rw [Emcc.generate, if_neg]
  · exact g1
  · rw [List.length_map]
    have := List.length_pos_of_ne_nil hts
    omega

/-! ### The bounds -/

theorem dictEq_of {d d' : Dom V S} (h1 : (Dict.keys d).Nodup) (h2 : (Dict.keys d').Nodup) (hk : ∀ v, v ∈ Dict.keys d ↔ v ∈ Dict.keys d')
    {D : V → List S} (hd : ∀ p ∈ d, p.2 = D p.1) (hd' : ∀ p ∈ d', p.2 = D p.1) : dictEq d d' := by
  constructor
  · have := (List.perm_ext_iff_of_nodup h1 h2).2 hk
    have := this.length_eq
    simpa [Dict.keys] using this
  · intro p hp
    obtain ⟨st, hst⟩ := Dict.mem_keys.1 ((hk p.1).1 (Dict.mem_keys_of_mem hp))
    rw [Dict.get?_of_mem h2 hst, hd p hp]
    exact congrArg some (hd' _ hst)

theorem Refit.causalOk {m : SCM II LL} {B : BN V S K} {m' : SCM II LL} {B' : BN V S K} (h : Refit m B m' B') (hm : m.Rep B)
    (hr : ∀ v ∈ m.exogenous, B.parents v = []) (hmu : m'.Multi) : CausalOk m' B' := by
  refine ⟨h.rep, h.valid, h.norm, fun v hv => ?_, fun v _ f hf => hmu v f hf⟩
  obtain ⟨hvn, hp⟩ := BN.mem_inner.1 hv
  refine h.rep.equations v ?_ hvn
  rw [h.endogenous]
  by_contra hc
  rw [h.nodes] at hvn
  rw [h.parents] at hp
  exact hp (hr v ((mem_exogenous hm).2 ⟨hvn, hc⟩))

/-- **C81** a query of an `EMCC` object: the answer is an interval factor over the targets; its bounds at every joint state are the
least and the greatest of the probabilities that the fitted models give to it under the intervention and the evidence.  The
evidence must have non-zero probability in all models that can be fitted to the records. -/
theorem C81_evidence {ch : Choices V} (hch : ch.Ok) (kl : List (Fl K) → List (Fl K) → Bool) {m : SCM II LL} {B : BN V S K} (h : m.Rep B)
    (hB : B.Valid) (hn : B.Normalised) (hnn : B.NonNeg) (hcast : m.cast = true)
    (hk : DagModel.Known m.base.graph B.states m.base)
    (hdoms : ∀ v ∈ B.nodes, Dict.get? m.base.domains v = some (some (B.states v)))
    (hx : m.exogenous ≠ []) {fr : Frame V S} (hd : EmccData m B fr) {ts : List (V → List K)} (hts : ts ≠ [])
    (ht : ∀ t ∈ ts, ∀ x ∈ m.exogenous, Draws false (famDom m.base.graph B.states x) (m.base.graph.pred x) (t x)) (n : ℕ)
    (N : BoundNames V S) (wt : VType) {T : List V} {d ev : Obs V S} (hT : T ≠ []) (hTn : T.Nodup)
    (hTv : ∀ x ∈ T, x ∈ B.nodes ∧ x ∉ Dict.keys ev ∧ x ∉ Dict.keys d) (hb : N.bound ∉ T) (hdo : EvOk B d) (hev : EvOk B ev)
    {e : Option (Obs V S)} (hee : e.getD [] = ev)
    (hp : ∀ m' B', Refit m B m' B' → (∀ r ∈ fr.rows, Possible B' r) → B'.doMarg d (Dict.keys ev) (asg ev) ≠ 0) :
    ∃ os Bs r, Emcc.generate ch kl m n fr (ts.map fun t x => (t x).map Fl.fin) = .ok (EM.addMissing B.nodes fr, os) ∧
      os.length = ts.length ∧ List.Forall₂ (fun o B' => Refit m B o.core.model B') os Bs ∧
      Emcc.causalQuery ch kl N (storeOf wt) true m n fr (ts.map fun t x => (t x).map Fl.fin) T d e = .ok (.interval r) ∧
      (∀ v, v ∈ Dict.keys (r.dom N) ↔ v ∈ T) ∧ (∀ p ∈ r.dom N, p.2 = B.states p.1) ∧
      ∀ o, FullObs (r.dom N) o → ∃ lo hi, TightBounds lo hi (Bs.map fun B' =>
          B'.doMarg d (T ++ Dict.keys ev) (asg (ev ++ o)) / B'.doMarg d (Dict.keys ev) (asg ev)) ∧
        r.getValue ((N.bound, N.low) :: o) = .ok (.fin lo) ∧ r.getValue ((N.bound, N.up) :: o) = .ok (.fin hi) := by
  have hI := storeOf_lawful (V := V) (S := S) (α := Fl K) vt
  obtain ⟨os, Bs, g1, g2, g3⟩ := C81_generate hch kl h hB hn hnn hcast hk hdoms hx hd hts ht n
  have hone : ∀ (os : List (LObj (ScmEM II LL) (SCM II LL))) (Bs : List (BN V S K)),
      List.Forall₂ (fun o B' => Refit m B o.core.model B' ∧ o.core.model.Multi ∧ ∀ r ∈ fr.rows, Possible B' r) os Bs →
      ∃ (ms : List (SCM II LL)) (rs : List (Factor II)), (os.map fun o => o.core.model).mapM Causal.new = .ok ms ∧
        (ms.mapM fun i => Causal.causalQuery ch i T d e) = .ok rs ∧
        List.Forall₂ (fun r B' => r.WF ∧ (∀ p ∈ r.dom, p.2 = B.states p.1) ∧ (∀ v, v ∈ r.vars ↔ v ∈ T) ∧
          ∀ obs, FullObs r.dom obs → r.getValue obs = .ok (.fin
            (BN.doMarg B' d (T ++ Dict.keys ev) (asg (ev ++ obs)) / BN.doMarg B' d (Dict.keys ev) (asg ev)))) rs Bs := by
    intro os Bs hf
    induction hf with
    | nil => exact ⟨[], [], rfl, rfl, .nil⟩
    | @cons o B' os Bs ho _ ih =>
      obtain ⟨ms, rs, i1, i2, i3⟩ := ih
      have hev' : ∀ {x : Obs V S}, EvOk B x → EvOk B' x := fun {x} hx =>
        ⟨hx.nodup, by rw [ho.1.nodes]; exact hx.nodes, by rw [ho.1.states]; exact hx.states⟩
      obtain ⟨m', r, c1, c2, c3, c4, c5, _, c7⟩ := C42_interventional hch (ho.1.causalOk h hd.data.roots ho.2.1) hT hTn
        (by rw [ho.1.nodes]; exact hTv) (hev' hdo) (hev' hev) hee (hp _ _ ho.1 ho.2.2)
      refine ⟨m' :: ms, r :: rs, ?_, ?_, .cons ⟨c3, by rw [← ho.1.states]; exact c4, c5, c7⟩ i3⟩
      · rw [List.map_cons, List.mapM_cons, c1, py_ok_bind, i1]; rfl
      · rw [List.mapM_cons, c2, py_ok_bind, i2]; rfl
  obtain ⟨ms, rs, q1, q2, q3⟩ := hone os Bs g3
  have hosne : os ≠ [] := by
    intro e
    rw [e] at g2
    exact hts (List.length_eq_zero_iff.1 g2.symm)
  cases q3 with
  | nil =>
    cases g3
    exact absurd rfl hosne
  | @cons f B1 fs Bs hf hfs =>
    have hall : ∀ g ∈ f :: fs, ∃ B', g.WF ∧ (∀ p ∈ g.dom, p.2 = B.states p.1) ∧ (∀ v, v ∈ g.vars ↔ v ∈ T) ∧
          ∀ obs, FullObs g.dom obs → g.getValue obs = .ok (.fin
            (BN.doMarg B' d (T ++ Dict.keys ev) (asg (ev ++ obs)) / BN.doMarg B' d (Dict.keys ev) (asg ev))) := by
      intro g hg
      have : ∀ (rs : List (Factor II)) (Bs : List (BN V S K)), List.Forall₂ (fun r B' => r.WF ∧ (∀ p ∈ r.dom, p.2 = B.states p.1) ∧
          (∀ v, v ∈ r.vars ↔ v ∈ T) ∧ ∀ obs, FullObs r.dom obs → r.getValue obs = .ok (.fin
            (BN.doMarg B' d (T ++ Dict.keys ev) (asg (ev ++ obs)) / BN.doMarg B' d (Dict.keys ev) (asg ev)))) rs Bs → g ∈ rs → ∃ B',
          g.WF ∧ (∀ p ∈ g.dom, p.2 = B.states p.1) ∧ (∀ v, v ∈ g.vars ↔ v ∈ T) ∧ ∀ obs, FullObs g.dom obs → g.getValue obs = .ok (.fin
            (BN.doMarg B' d (T ++ Dict.keys ev) (asg (ev ++ obs)) / BN.doMarg B' d (Dict.keys ev) (asg ev))) := by
        intro rs Bs hf hg
        induction hf with
        | nil => cases hg
        | @cons r B' rs Bs hr _ ih =>
          rcases List.mem_cons.1 hg with rfl | hg
          · exact ⟨B', hr⟩
          · exact ih hg
      exact this _ _ (.cons hf hfs) hg
    have hdom : ∀ g ∈ f :: fs, dictEq f.dom g.dom := by
      intro g hg
      obtain ⟨_, w1, w2, w3, _⟩ := hall g hg
      exact dictEq_of (hf.1.domOk hI).keys (w1.domOk hI).keys (fun v => (hf.2.2.1 v).trans (w3 v).symm) hf.2.1 w2
    obtain ⟨r, r1, r2, r3, r4⟩ := C50_envelope N vt wt (f := f) (fs := fs) (fun g hg => (hall g hg).choose_spec.1) hdom
      (fun g hg o ho => ⟨_, (hall g hg).choose_spec.2.2.2 o ho⟩) (fun hc => hb ((hf.2.2.1 _).1 hc))
    refine ⟨os, B1 :: Bs, r, g1, g2, g3.imp fun _ _ hx => hx.1, ?_, fun v => by rw [r2]; exact hf.2.2.1 v, by rw [r2]; exact hf.2.1,
      fun o ho => ?_⟩
    · rw [Emcc.causalQuery, Emcc.infer, g1]
      simp only [py_ok_bind, q1, q2]
      simp [processOutput, r1]
    · rw [r2] at ho
      obtain ⟨lo, hi, xs, x1, x2, x3, x4⟩ := r4 o ho
      refine ⟨lo, hi, ?_, x3, x4⟩
      have hxs : xs = (B1 :: Bs).map fun B' =>
          BN.doMarg B' d (T ++ Dict.keys ev) (asg (ev ++ o)) / BN.doMarg B' d (Dict.keys ev) (asg ev) := by
        have hcov : ∀ g ∈ f :: fs, FullObs g.dom o := fun g hg => by
          obtain ⟨_, w1, w2, w3, _⟩ := hall g hg
          intro p hp
          obtain ⟨st, hst⟩ := Dict.mem_keys.1 ((hf.2.2.1 p.1).2 ((w3 p.1).1 (Dict.mem_keys_of_mem hp)))
          rw [w2 p hp, ← hf.2.1 _ hst]
          exact ho _ hst
        have key : ∀ (rs : List (Factor II)) (Bs : List (BN V S K)) (xs : List K), List.Forall₂ (fun r B' => r.WF ∧ (∀ p ∈ r.dom, p.2 = B.states p.1) ∧
            (∀ v, v ∈ r.vars ↔ v ∈ T) ∧ ∀ obs, FullObs r.dom obs → r.getValue obs = .ok (.fin
              (BN.doMarg B' d (T ++ Dict.keys ev) (asg (ev ++ obs)) / BN.doMarg B' d (Dict.keys ev) (asg ev)))) rs Bs →
            (∀ g ∈ rs, FullObs g.dom o) → FiniteAt rs xs o → xs = Bs.map fun B' =>
              BN.doMarg B' d (T ++ Dict.keys ev) (asg (ev ++ o)) / BN.doMarg B' d (Dict.keys ev) (asg ev) := by
          intro rs Bs xs hf
          induction hf generalizing xs with
          | nil =>
            intro _ hx
            cases xs with
            | nil => rfl
            | cons x xs => cases hx
          | @cons r B' rs Bs hr _ ih =>
            intro hc hx
            cases xs with
            | nil => cases hx
            | cons x xs =>
              rw [FiniteAt, List.map_cons, List.map_cons] at hx
              injection hx with hx1 hx2
              rw [hr.2.2.2 o (hc r List.mem_cons_self)] at hx1
              injection hx1 with hx1
              injection hx1 with hx1
              rw [List.map_cons, hx1, ← ih xs (fun g hg => hc g (List.mem_cons_of_mem _ hg)) hx2]
        exact key _ _ _ (.cons hf hfs) hcov x1
      rw [← hxs]
      exact x2

/-- **C81** a query of an `EMCC` object without evidence. -/
theorem C81_query {ch : Choices V} (hch : ch.Ok) (kl : List (Fl K) → List (Fl K) → Bool) {m : SCM II LL} {B : BN V S K} (h : m.Rep B)
    (hB : B.Valid) (hn : B.Normalised) (hnn : B.NonNeg) (hcast : m.cast = true)
    (hk : DagModel.Known m.base.graph B.states m.base)
    (hdoms : ∀ v ∈ B.nodes, Dict.get? m.base.domains v = some (some (B.states v)))
    (hx : m.exogenous ≠ []) {fr : Frame V S} (hd : EmccData m B fr) {ts : List (V → List K)} (hts : ts ≠ [])
    (ht : ∀ t ∈ ts, ∀ x ∈ m.exogenous, Draws false (famDom m.base.graph B.states x) (m.base.graph.pred x) (t x)) (n : ℕ)
    (N : BoundNames V S) (wt : VType) {T : List V} {d : Obs V S} (hT : T ≠ []) (hTn : T.Nodup)
    (hTv : ∀ x ∈ T, x ∈ B.nodes ∧ x ∉ Dict.keys d) (hb : N.bound ∉ T) (hdo : EvOk B d) :
    ∃ os Bs r, Emcc.generate ch kl m n fr (ts.map fun t x => (t x).map Fl.fin) = .ok (EM.addMissing B.nodes fr, os) ∧
      os.length = ts.length ∧ List.Forall₂ (fun o B' => Refit m B o.core.model B') os Bs ∧
      Emcc.causalQuery ch kl N (storeOf wt) true m n fr (ts.map fun t x => (t x).map Fl.fin) T d none = .ok (.interval r) ∧
      (∀ v, v ∈ Dict.keys (r.dom N) ↔ v ∈ T) ∧ (∀ p ∈ r.dom N, p.2 = B.states p.1) ∧
      ∀ o, FullObs (r.dom N) o → ∃ lo hi, TightBounds lo hi (Bs.map fun B' => B'.doMarg d T (asg o)) ∧
        r.getValue ((N.bound, N.low) :: o) = .ok (.fin lo) ∧ r.getValue ((N.bound, N.up) :: o) = .ok (.fin hi) := by
  have hone : ∀ (m' : SCM II LL) B', Refit m B m' B' → B'.doMarg d (Dict.keys ([] : Obs V S)) (asg []) = 1 := by
    intro m' B' hr
    rw [← BN.doMarg_eq (by rw [hr.nodes]; exact hdo.nodes)]
    exact BN.marg_nil (hr.valid.doBN d) (hr.norm.doBN hr.valid fun v s hs _ => by rw [hr.states]; exact hdo.states v s hs) _
  obtain ⟨os, Bs, r, g1, g2, g3, g4, g5, g6, g7⟩ := C81_evidence hch kl h hB hn hnn hcast hk hdoms hx hd hts ht n N wt (ev := [])
    hT hTn (fun x hx => ⟨(hTv x hx).1, by simp [Dict.keys], (hTv x hx).2⟩) hb hdo ⟨by simp [Dict.keys], by simp [Dict.keys], fun v s hs => by cases hs⟩
    (e := none) rfl (fun m' B' hr _ => by rw [hone m' B' hr]; exact one_ne_zero)
  refine ⟨os, Bs, r, g1, g2, g3, g4, g5, g6, fun o ho => ?_⟩
  obtain ⟨lo, hi, x1, x2, x3⟩ := g7 o ho
  refine ⟨lo, hi, ?_, x2, x3⟩
  have : (Bs.map fun B' => B'.doMarg d (T ++ Dict.keys ([] : Obs V S)) (asg ([] ++ o)) / B'.doMarg d (Dict.keys ([] : Obs V S)) (asg [])) =
      Bs.map fun B' => B'.doMarg d T (asg o) := by
    refine List.map_congr_left fun B' hB' => ?_
    obtain ⟨m', hm'⟩ : ∃ m', Refit m B m' B' := by
      have key : ∀ (os : List (LObj (ScmEM II LL) (SCM II LL))) (Bs : List (BN V S K)),
          List.Forall₂ (fun o B' => Refit m B o.core.model B') os Bs → B' ∈ Bs → ∃ m', Refit m B m' B' := by
        intro os Bs hf hm
        induction hf with
        | nil => cases hm
        | @cons o C os Bs ho _ ih =>
          rcases List.mem_cons.1 hm with rfl | hm
          · exact ⟨_, ho⟩
          · exact ih hm
      exact key os Bs g3 hB'
    rw [hone m' B' hm', div_one]
    simp [Dict.keys]
  rw [← this]
  exact x1

end Props
end Verif
