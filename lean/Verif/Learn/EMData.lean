import Verif.Learn.EMLemmas
import Verif.Learn.Iterative

/-!
# Expectation maximisation on roots: helper lemmas
-/

set_option linter.unusedSectionVars false
set_option linter.unusedSimpArgs false

namespace Verif

/-! ### Possible records -/

section
variable {V S K : Type} [DecidableEq V] [DecidableEq S] [Field K] [LinearOrder K] [IsStrictOrderedRing K]

theorem BN.NonNeg.joint {B : BN V S K} (h : B.NonNeg) {a : V → S} (ha : B.InStates a) : 0 ≤ B.joint a := by
  refine List.prod_nonneg fun x hx => ?_
  obtain ⟨v, hv, rfl⟩ := List.mem_map.1 hx
  exact h v hv a ha

/-- The marginals of a possible assignment are positive. -/
theorem BN.marg_pos {B : BN V S K} (hB : B.Valid) (hnn : B.NonNeg) (T : List V) {a : V → S} (ha : B.InStates a)
    (hp : 0 < B.joint a) : 0 < B.marg T a := by
  have h0 : ∀ b, (∀ v, v ∉ B.nodes.filter (· ∉ T) → b v = a v) → (∀ v ∈ B.nodes.filter (· ∉ T), b v ∈ B.states v) →
      0 ≤ B.joint b := by
    intro b h1 h2
    refine hnn.joint fun v hv => ?_
    by_cases h : v ∈ B.nodes.filter (· ∉ T)
    · exact h2 v h
    · rw [h1 v h]; exact ha v hv
  refine lt_of_le_of_ne (sumOver_nonneg (hB.nodes.filter _) h0) fun e => ?_
  have := sumOver_eq_zero (hB.nodes.filter _) h0 e.symm (b := a) (fun _ _ => rfl) fun v hv => ha v (List.mem_filter.1 hv).1
  rw [this] at hp
  exact lt_irrefl _ hp

theorem BN.post_nonneg {B : BN V S K} (hB : B.Valid) (hnn : B.NonNeg) {T : List V} {o : Obs V S}
    (ho : ∀ v s, Dict.get? o v = some s → s ∈ B.states v) {a : V → S} (ha : ∀ v ∈ T, a v ∈ B.states v) : 0 ≤ B.post T o a := by
  have h : ∀ v ∈ T ++ Dict.keys o, over o a v ∈ B.states v := by
    intro v hv
    by_cases hk : v ∈ Dict.keys o
    · obtain ⟨s, hs⟩ := Option.isSome_iff_exists.1 (Dict.get?_isSome.2 hk)
      rw [over_of_get? hs]; exact ho v s hs
    · rw [over_of_not_mem hk]
      exact ha v ((List.mem_append.1 hv).resolve_right hk)
  exact div_nonneg (BN.marg_nonneg hB hnn fun v hv _ => h v hv) (BN.marg_nonneg hB hnn fun v hv _ => h v (List.mem_append_right _ hv))

theorem BN.post_pos {B : BN V S K} (hB : B.Valid) (hnn : B.NonNeg) (T : List V) {o : Obs V S} {a : V → S} (ha : B.InStates a)
    (hp : 0 < B.joint a) (ho : ∀ v s, Dict.get? o v = some s → a v = s) : 0 < B.post T o a := by
  have e : over o a = a := over_self_of_agree ho
  rw [BN.post, e]
  exact div_pos (BN.marg_pos hB hnn _ ha hp) (BN.marg_pos hB hnn _ ha hp)

theorem BN.expCount_nonneg {B : BN V S K} (hB : B.Valid) (hnn : B.NonNeg) {v : V} {oc : List (Obs V S × ℕ)}
    (ho : ∀ p ∈ oc, ∀ v s, Dict.get? p.1 v = some s → s ∈ B.states v) {a : V → S}
    (ha : ∀ w ∈ v :: B.parents v, a w ∈ B.states w) : 0 ≤ B.expCount v oc a := by
  refine List.sum_nonneg fun x hx => ?_
  obtain ⟨p, hp, rfl⟩ := List.mem_map.1 hx
  exact mul_nonneg (BN.post_nonneg hB hnn (ho p hp) fun w hw => ha w (List.mem_filter.1 hw).1) (Nat.cast_nonneg _)

theorem BN.expCount_pos {B : BN V S K} (hB : B.Valid) (hnn : B.NonNeg) {v : V} (hv : v ∈ B.nodes) {oc : List (Obs V S × ℕ)}
    (ho : ∀ p ∈ oc, ∀ v s, Dict.get? p.1 v = some s → s ∈ B.states v) {a : V → S} (ha : B.InStates a)
    (hp : 0 < B.joint a) {p : Obs V S × ℕ} (hpm : p ∈ oc) (hc : 0 < p.2) (hag : ∀ v s, Dict.get? p.1 v = some s → a v = s) :
    0 < B.expCount v oc a := by
  have hloc : ∀ w ∈ v :: B.parents v, a w ∈ B.states w := by
    intro w hw
    rcases List.mem_cons.1 hw with rfl | hw
    · exact ha _ hv
    · exact ha _ (hB.parents v hv w hw)
  have h0 : ∀ x ∈ oc.map fun p => B.post (B.hidden v p.1) p.1 a * (p.2 : K), 0 ≤ x := by
    intro x hx
    obtain ⟨q, hq, rfl⟩ := List.mem_map.1 hx
    exact mul_nonneg (BN.post_nonneg hB hnn (ho q hq) fun w hw => hloc w (List.mem_filter.1 hw).1) (Nat.cast_nonneg _)
  have h1 : B.post (B.hidden v p.1) p.1 a * (p.2 : K) ≤ B.expCount v oc a :=
    List.single_le_sum h0 _ (List.mem_map.2 ⟨p, hpm, rfl⟩)
  exact lt_of_lt_of_le (mul_pos (BN.post_pos hB hnn _ ha hp hag) (Nat.cast_pos.2 hc)) h1

end

/-! ### Columns that are missing -/

section
variable {V S K : Type} [DecidableEq V] [DecidableEq S]

theorem val_missing (r : Rec V S) (vs : List V) (v : V) : Rec.val (r ++ vs.map fun v => (v, none)) v = Rec.val r v := by
  rw [Rec.val, Rec.val, Dict.get?_append]
  cases h : Dict.get? r v with
  | some x => rfl
  | none =>
    simp only [Option.none_or, Option.getD_none]
    rw [Dict.get?_map]
    split <;> rfl

theorem observed_missing (r : Rec V S) (vs : List V) : Rec.observed (r ++ vs.map fun v => (v, none)) = Rec.observed r := by
  rw [Rec.observed, Rec.observed, List.filter_append, List.filter_map]
  simp [Function.comp_def]

theorem Frame.WF.addMissing {fr : Frame V S} (h : fr.WF) {vs : List V} (hv : vs.Nodup) : (EM.addMissing vs fr).WF where
  nodup := by
    refine List.nodup_append.2 ⟨h.nodup, hv.filter _, ?_⟩
    intro x hx y hy e
    exact ((mem_filter_not _ _ _).1 hy).2 (e ▸ hx)
  keys := by
    intro r hr
    obtain ⟨r, hr', rfl⟩ := List.mem_map.1 hr
    rw [Dict.keys_append, h.keys r hr']
    simp [Dict.keys, List.map_map, Function.comp_def, EM.addMissing]


/-- Some assignment of positive probability has the values of the record. -/
def Possible [CommMonoid K] [Zero K] [LT K] (B : BN V S K) (r : Rec V S) : Prop :=
  ∃ a, B.InStates a ∧ 0 < B.joint a ∧ ∀ v s, Rec.val r v = some s → a v = s

/-- Data from which the roots `T` of a network can be learnt: at least one record, columns that are nodes, values that are
states; the variables of `T` are never observed, and in every record something is observed that is not separated from
them. -/
structure RootData (B : BN V S K) (g : DiGraph V) (fr : Frame V S) (T : List V) : Prop where
  wf : fr.WF
  rows : fr.rows ≠ []
  cols : ∀ v ∈ fr.cols, v ∈ B.nodes
  states : ∀ r ∈ fr.rows, ∀ v s, Rec.val r v = some s → s ∈ B.states v
  nodes : ∀ v ∈ T, v ∈ B.nodes
  roots : ∀ v ∈ T, B.parents v = []
  hidden : ∀ v ∈ T, ∀ r ∈ fr.rows, Rec.val r v = none
  connected : ∀ v ∈ T, ∀ r ∈ fr.rows, ∃ w ∈ Rec.observed r, w ∈ g.dconNodes v (Rec.observed r)

theorem RootData.addMissing {B : BN V S K} {g : DiGraph V} {fr : Frame V S} {T : List V} (h : RootData B g fr T)
    (hB : B.nodes.Nodup) : RootData B g (EM.addMissing B.nodes fr) T := by
  have hrow : ∀ r' ∈ (EM.addMissing B.nodes fr).rows, ∃ r ∈ fr.rows, (∀ v, Rec.val r' v = Rec.val r v) ∧
      Rec.observed r' = Rec.observed r := by
    intro r' hr'
    obtain ⟨r, hr, rfl⟩ := List.mem_map.1 hr'
    exact ⟨r, hr, val_missing r _, observed_missing r _⟩
  refine ⟨h.wf.addMissing hB, by simpa [EM.addMissing] using h.rows, fun v hv => ?_, fun r' hr' v s hs => ?_, h.nodes, h.roots,
    fun v hv r' hr' => ?_, fun v hv r' hr' => ?_⟩
  · rcases List.mem_append.1 hv with hv | hv
    · exact h.cols v hv
    · exact ((mem_filter_not _ _ _).1 hv).1
  · obtain ⟨r, hr, h1, _⟩ := hrow r' hr'
    rw [h1] at hs
    exact h.states r hr v s hs
  · obtain ⟨r, hr, h1, _⟩ := hrow r' hr'
    rw [h1]; exact h.hidden v hv r hr
  · obtain ⟨r, hr, _, h2⟩ := hrow r' hr'
    rw [h2]; exact h.connected v hv r hr

/-- The weighted observations of a variable -/
def weighted (g : DiGraph V) (fr : Frame V S) (v : V) : List (Obs V S × ℕ) :=
  (obsBlanket g fr v).map fun o => (o, fr.rows.countP fun r => o.all fun p => Rec.eqAt r p.1 p.2)

theorem RootData.obsCounts {B : BN V S K} {g : DiGraph V} {fr : Frame V S} {T : List V} (h : RootData B g fr T) {v : V} (hv : v ∈ T) :
    obsCounts g fr v = .ok (weighted g fr v) := by
  refine Props.obsCounts_ok h.wf fun r hr => ?_
  obtain ⟨w, h1, h2⟩ := h.connected v hv r hr
  rw [observed_eq h.wf.nodup (h.wf.keys r hr)] at h1
  obtain ⟨h3, h4⟩ := List.mem_filter.1 h1
  exact ⟨w, h3, List.mem_cons_of_mem _ h2, h4⟩

theorem RootData.mem_weighted {B : BN V S K} {g : DiGraph V} {fr : Frame V S} {T : List V} (h : RootData B g fr T) {v : V}
    {p : Obs V S × ℕ} (hp : p ∈ weighted g fr v) : ∃ r ∈ fr.rows, (Dict.keys p.1).Nodup ∧
      ∀ w s, Dict.get? p.1 w = some s → w ∈ fr.cols ∧ Rec.val r w = some s := by
  obtain ⟨o, ho, rfl⟩ := List.mem_map.1 hp
  obtain ⟨r, hr, rfl⟩ := (Props.C60_patterns g fr v).1 o ho
  refine ⟨r, hr, keys_dsepFilter_nodup h.wf.nodup (h.wf.keys r hr) g v, fun w s hs => ?_⟩
  have := (mem_dsepFilter h.wf.nodup (h.wf.keys r hr)).1 (Dict.mem_of_get? hs)
  exact ⟨this.1, this.2.2⟩

theorem RootData.own {B : BN V S K} {g : DiGraph V} {fr : Frame V S} {T : List V} (h : RootData B g fr T) (v : V)
    {r : Rec V S} (hr : r ∈ fr.rows) : ∃ p ∈ weighted g fr v, 0 < p.2 ∧ ∀ w s, Dict.get? p.1 w = some s → Rec.val r w = some s := by
  obtain ⟨d, hd, hall⟩ := List.any_eq_true.1 (Props.own_pattern h.wf (g := g) (t := v) hr)
  refine ⟨_, List.mem_map.2 ⟨d, hd, rfl⟩, List.countP_pos_iff.2 ⟨r, hr, hall⟩, fun w s hs => ?_⟩
  have := List.all_eq_true.1 hall _ (Dict.mem_of_get? hs)
  rw [Rec.eqAt, beq_iff_eq] at this
  exact this

end

section
variable {V S K : Type} [DecidableEq V] [DecidableEq S] [Nonempty S] [Field K] [LinearOrder K] [IsStrictOrderedRing K] {vt : VType}

local notation "II" => (storeOf vt : StoreImpl V S (Fl K))

namespace EM

/-- The networks that learning the roots `T` from the records goes through. -/
structure Net (B0 : BN V S K) (T : List V) (rows : List (Rec V S)) (B : BN V S K) : Prop where
  valid : B.Valid
  norm : B.Normalised
  nonneg : B.NonNeg
  nodes : B.nodes = B0.nodes
  parents : B.parents = B0.parents
  states : B.states = B0.states
  same : ∀ v ∈ B0.nodes, v ∉ T → B.table v = B0.table v
  possible : ∀ r ∈ rows, Possible B r

theorem Net.data {B0 B : BN V S K} {T : List V} {fr : Frame V S} {g : DiGraph V} (h : Net B0 T fr.rows B)
    (hd : RootData B0 g fr T) : RootData B g fr T :=
  ⟨hd.wf, hd.rows, by rw [h.nodes]; exact hd.cols, by rw [h.states]; exact hd.states, by rw [h.nodes]; exact hd.nodes,
    by rw [h.parents]; exact hd.roots, hd.hidden, hd.connected⟩

theorem Net.obsOk {B : BN V S K} {T : List V} {fr : Frame V S} {g : DiGraph V} (hd : RootData B g fr T) (hB : B.Valid) (hnn : B.NonNeg)
    (hpos : ∀ r ∈ fr.rows, Possible B r) {v : V} (hv : v ∈ T) {p : Obs V S × ℕ} (hp : p ∈ weighted g fr v) : ObsOk B v p.1 := by
  obtain ⟨r, hr, h1, h2⟩ := hd.mem_weighted hp
  have hvk : v ∉ Dict.keys p.1 := by
    intro hc
    obtain ⟨s, hs⟩ := Option.isSome_iff_exists.1 (Dict.get?_isSome.2 hc)
    have := (h2 v s hs).2
    rw [hd.hidden v hv r hr] at this
    cases this
  refine ⟨?_, ⟨h1, fun w hw => ?_, fun w s hs => hd.states r hr w s (h2 w s hs).2⟩, ?_⟩
  · rw [BN.hidden, hd.roots v hv]
    simp [hvk]
  · obtain ⟨s, hs⟩ := Option.isSome_iff_exists.1 (Dict.get?_isSome.2 hw)
    exact hd.cols w (h2 w s hs).1
  · obtain ⟨a, a1, a2, a3⟩ := hpos r hr
    have : B.marg (Dict.keys p.1) (asg p.1) = B.marg (Dict.keys p.1) a := by
      refine hB.marg_dep _ _ _ fun w hw => ?_
      obtain ⟨s, hs⟩ := Option.isSome_iff_exists.1 (Dict.get?_isSome.2 hw)
      rw [asg, over_of_get? hs, a3 w s (h2 w s hs).2]
    rw [this]
    exact (BN.marg_pos hB hnn _ a1 a2).ne'

/-- The count of the state that a possible assignment gives to `v` is positive. -/
theorem Net.count_pos {B : BN V S K} {T : List V} {fr : Frame V S} {g : DiGraph V} (hd : RootData B g fr T) (hB : B.Valid)
    (hnn : B.NonNeg) {v : V} (hv : v ∈ T) {r : Rec V S} (hr : r ∈ fr.rows) {a : V → S} (h1 : B.InStates a) (h2 : 0 < B.joint a)
    (h3 : ∀ v s, Rec.val r v = some s → a v = s) : 0 < B.expCount v (weighted g fr v) a := by
  obtain ⟨p, p1, p2, p3⟩ := hd.own v hr
  refine BN.expCount_pos hB hnn (hd.nodes v hv) (fun q hq => ?_) h1 h2 p1 p2 fun w s hs => h3 w s (p3 w s hs)
  obtain ⟨r', hr', _, q2⟩ := hd.mem_weighted hq
  exact fun w s hs => hd.states r' hr' w s (q2 w s hs).2

theorem Net.total_pos {B : BN V S K} {T : List V} {fr : Frame V S} {g : DiGraph V} (hd : RootData B g fr T) (hB : B.Valid)
    (hnn : B.NonNeg) (hpos : ∀ r ∈ fr.rows, Possible B r) {v : V} (hv : v ∈ T) (a : V → S) :
    0 < ((B.states v).map fun x => B.expCount v (weighted g fr v) (upd a v x)).sum := by
  obtain ⟨r, hr⟩ := List.exists_mem_of_ne_nil _ hd.rows
  obtain ⟨b, b1, b2, b3⟩ := hpos r hr
  have hroot := hd.roots v hv
  have h0 : ∀ x ∈ (B.states v).map fun x => B.expCount v (weighted g fr v) (upd a v x), 0 ≤ x := by
    intro y hy
    obtain ⟨x, hx, rfl⟩ := List.mem_map.1 hy
    refine BN.expCount_nonneg hB hnn (fun q hq => ?_) fun w hw => ?_
    · obtain ⟨r', hr', _, q2⟩ := hd.mem_weighted hq
      exact fun w s hs => hd.states r' hr' w s (q2 w s hs).2
    · rw [hroot] at hw
      obtain rfl : w = v := by simpa using hw
      rw [upd_same]; exact hx
  refine lt_of_lt_of_le (Net.count_pos hd hB hnn hv hr b1 b2 b3) ?_
  refine List.single_le_sum h0 _ (List.mem_map.2 ⟨b v, b1 v (hd.nodes v hv), ?_⟩)
  refine hB.expCount_dep v _ _ _ fun w hw => ?_
  rw [hroot] at hw
  obtain rfl : w = v := by simpa using hw
  rw [upd_same]

theorem Net.reest {B0 B : BN V S K} {T vs : List V} {fr : Frame V S} {g : DiGraph V} (h : Net B0 T fr.rows B)
    (hd : RootData B0 g fr T) (hvs : ∀ v ∈ vs, v ∈ T) :
    Net B0 T fr.rows (B.reest vs fun v => B.expCount v (weighted g fr v)) := by
  have hd' := h.data hd
  have hB := h.valid
  refine ⟨hB.reest fun v _ => hB.expCount_dep v _, ?_, ?_, h.nodes, h.parents, h.states, ?_, ?_⟩
  · intro v hv a ha
    show ((B.states v).map fun s => if v ∈ vs then _ else _).sum = 1
    by_cases hvt : v ∈ vs
    · simp only [if_pos hvt, upd_upd]
      have := Net.total_pos hd' hB h.nonneg h.possible (hvs v hvt) a
      simp only [div_eq_mul_inv]
      rw [List.sum_map_mul_right, mul_inv_cancel₀ this.ne']
    · simp only [if_neg hvt]
      exact h.norm v hv a ha
  · intro v hv a ha
    show 0 ≤ if v ∈ vs then _ else _
    by_cases hvt : v ∈ vs
    · rw [if_pos hvt]
      refine div_nonneg (BN.expCount_nonneg hB h.nonneg (fun q hq => ?_) fun w hw => ?_)
        (Net.total_pos hd' hB h.nonneg h.possible (hvs v hvt) a).le
      · obtain ⟨r', hr', _, q2⟩ := hd'.mem_weighted hq
        exact fun w s hs => hd'.states r' hr' w s (q2 w s hs).2
      · rw [hd'.roots v (hvs v hvt)] at hw
        obtain rfl : w = v := by simpa using hw
        exact ha w hv
    · rw [if_neg hvt]; exact h.nonneg v hv a ha
  · intro v hv hvt
    rw [← h.same v hv hvt]
    funext a
    exact if_neg fun hc => hvt (hvs v hc)
  · intro r hr
    obtain ⟨a, a1, a2, a3⟩ := h.possible r hr
    refine ⟨a, a1, ?_, a3⟩
    refine List.prod_pos fun x hx => ?_
    obtain ⟨v, hv, rfl⟩ := List.mem_map.1 hx
    show 0 < if v ∈ vs then _ else _
    by_cases hvt : v ∈ vs
    · rw [if_pos hvt]
      exact div_pos (Net.count_pos hd' hB h.nonneg (hvs v hvt) hr a1 a2 a3)
        (Net.total_pos hd' hB h.nonneg h.possible (hvs v hvt) a)
    · rw [if_neg hvt]
      refine lt_of_le_of_ne (h.nonneg v hv a a1) fun e => ?_
      have : B.joint a = 0 := List.prod_eq_zero (List.mem_map.2 ⟨v, hv, e.symm⟩)
      rw [this] at a2
      exact lt_irrefl _ a2


/-- The model `m` is a network over the graph and the states of the prior, its tables are non-negative and normalised, and
the factors of all variables but `T` are those of the prior. -/
def Learnt (prior : DagModel (Factor II) V S) (B0 : BN V S K) (T : List V) (m : DagModel (Factor II) V S) : Prop :=
  ∃ B, Represents m B ∧ B.Valid ∧ B.Normalised ∧ B.NonNeg ∧ B.nodes = B0.nodes ∧ B.parents = B0.parents ∧
    B.states = B0.states ∧ ∀ v ∈ B0.nodes, v ∉ T → B.table v = B0.table v ∧ Dict.get? m.factors v = Dict.get? prior.factors v

theorem Learnt.refl {prior : DagModel (Factor II) V S} {B0 : BN V S K} (h : Represents prior B0) (hB : B0.Valid) (hn : B0.Normalised)
    (hnn : B0.NonNeg) (T : List V) : Learnt prior B0 T prior :=
  ⟨B0, h, hB, hn, hnn, rfl, rfl, rfl, fun _ _ _ => ⟨rfl, rfl⟩⟩

/-- State of the object while it learns `T` from `fr`. -/
structure CoreOk (prior : DagModel (Factor II) V S) (B0 : BN V S K) (T : List V) (fr : Frame V S) (c : EM II) : Prop where
  isPrior : c.prior = prior
  trainable : c.trainable = T
  data : c.data = fr
  graph : c.model.graph = prior.graph
  model : ∃ B, Net B0 T fr.rows B ∧ Represents c.model B ∧
    ∀ v ∈ B0.nodes, v ∉ T → Dict.get? c.model.factors v = Dict.get? prior.factors v

theorem CoreOk.learnt {prior : DagModel (Factor II) V S} {B0 : BN V S K} {T : List V} {fr : Frame V S} {c : EM II}
    (h : CoreOk prior B0 T fr c) : Learnt prior B0 T c.model := by
  obtain ⟨B, h1, h2, h3⟩ := h.model
  exact ⟨B, h2, h1.valid, h1.norm, h1.nonneg, h1.nodes, h1.parents, h1.states, fun v hv hvT => ⟨h1.same v hv hvT, h3 v hv hvT⟩⟩

theorem todo_sub {ch : Choices V} (hch : ch.Ok) (c : EM II) : ∀ v ∈ todo ch c, v ∈ c.trainable := fun v hv =>
  (List.mem_filter.1 (((hch.setOrd _).2 v).1 hv)).1

/-- A step from a good state: explicit form of the next model. -/
theorem step_net {ch : Choices V} (hch : ch.Ok) {prior : DagModel (Factor II) V S} {B0 : BN V S K} (hp : PriorOk prior B0) {T : List V}
    {fr : Frame V S} (hd : RootData B0 prior.graph fr T) {c : EM II} {B : BN V S K} (h1 : c.prior = prior) (h2 : c.trainable = T)
    (h3 : c.data = fr) (h4 : c.model.graph = prior.graph) (h5 : Net B0 T fr.rows B) (h6 : Represents c.model B) :
    ∃ m', update ch c = .ok { c with model := m' } ∧ m'.graph = prior.graph ∧
      Represents m' (B.reest (todo ch c) fun v => B.expCount v (weighted prior.graph fr v)) ∧
      Net B0 T fr.rows (B.reest (todo ch c) fun v => B.expCount v (weighted prior.graph fr v)) ∧
      ∀ v ∈ B0.nodes, v ∉ T → Dict.get? m'.factors v = Dict.get? c.model.factors v := by
  have hd' := h5.data hd
  have ht : ∀ v ∈ todo ch c, v ∈ T := fun v hv => h2 ▸ todo_sub hch c v hv
  have hp' : PriorOk c.prior B := by
    rw [h1]
    exact ⟨by rw [h5.nodes]; exact hp.nodes, by rw [h5.nodes, h5.parents]; exact hp.parents,
      by rw [h5.nodes, h5.states]; exact hp.domains⟩
  obtain ⟨m', m1, m2, m3, m4, m5, m6⟩ := update_ok hch h6 h5.valid h5.norm hp' (by rw [h2]; exact hd'.nodes)
    (weighted prior.graph fr) (fun v hv => by rw [h3, h4]; exact hd'.obsCounts (ht v hv))
    (fun v hv p hpm => Net.obsOk hd' h5.valid h5.nonneg h5.possible (ht v hv) hpm)
    (fun v hv a _ => (Net.total_pos hd' h5.valid h5.nonneg h5.possible (ht v hv) a).ne')
  refine ⟨m', m1, by rw [m4, h4], m2, h5.reest hd ht, fun v hv hvT => m5 v (by rw [h5.nodes]; exact hv) fun hc => hvT (ht v hc)⟩

theorem CoreOk.update {ch : Choices V} (hch : ch.Ok) {prior : DagModel (Factor II) V S} {B0 : BN V S K} (hp : PriorOk prior B0) {T : List V}
    {fr : Frame V S} (hd : RootData B0 prior.graph fr T) {c : EM II} (h : CoreOk prior B0 T fr c) :
    ∃ c', update ch c = .ok c' ∧ CoreOk prior B0 T fr c' := by
  obtain ⟨B, b1, b2, b3⟩ := h.model
  obtain ⟨m', m1, m2, m3, m4, m5⟩ := step_net hch hp hd h.isPrior h.trainable h.data h.graph b1 b2
  exact ⟨_, m1, h.isPrior, h.trainable, h.data, m2, _, m4, m3, fun v hv hvT => by rw [m5 v hv hvT]; exact b3 v hv hvT⟩

/-- The variables that are learnt -/
def effective (tr : List V) (nodes : List V) (fr : Frame V S) : List V :=
  if tr = [] then (addMissing nodes fr).cols.filter (addMissing nodes fr).hasNa else tr

theorem init_ok {prior : DagModel (Factor II) V S} {B0 : BN V S K} (hr : Represents prior B0) (hB : B0.Valid) (hn : B0.Normalised)
    (hnn : B0.NonNeg) {T : List V} {fr : Frame V S} (hpos : ∀ r ∈ fr.rows, Possible B0 r) {c : EM II}
    (hc : c.prior = prior) (hT : effective c.trainable B0.nodes fr = T) :
    ∃ c', init c fr = .ok c' ∧ CoreOk prior B0 T (addMissing B0.nodes fr) c' := by
  obtain ⟨m', m1, m2, m3, m4, m5⟩ := hr.copy hB
  refine ⟨{ c with model := m', data := addMissing B0.nodes fr, trainable := T }, ?_, hc, rfl, rfl, m3, B0, ?_, m2, ?_⟩
  · rw [init, hc, m1, py_ok_bind, hr.nodes, ← hT]
    rfl
  · refine ⟨hB, hn, hnn, rfl, rfl, rfl, fun _ _ _ => rfl, fun r' hr' => ?_⟩
    obtain ⟨r, hr0, rfl⟩ := List.mem_map.1 hr'
    obtain ⟨a, a1, a2, a3⟩ := hpos r hr0
    exact ⟨a, a1, a2, fun v s hs => a3 v s (by rw [val_missing] at hs; exact hs)⟩
  · intro v _ _
    show Dict.get? m'.factors v = _
    rw [m4]

theorem Learnt.tableOf {prior : DagModel (Factor II) V S} {B0 : BN V S K} {T : List V} {m : DagModel (Factor II) V S}
    (h : Learnt prior B0 T m) {v : V} (hv : v ∈ B0.nodes) : ∃ l, tableOf m v = .ok l := by
  obtain ⟨B, h1, _, _, _, h2, _⟩ := h
  obtain ⟨f, g, f1, f2, f3⟩ := h1.table v (by rw [h2]; exact hv)
  injection f2 with f2
  subst f2
  refine ⟨(assignmentSpace f.dom).map fun o => f.sem (asg o), ?_⟩
  rw [EM.tableOf, Dict.get, f1]
  exact Factor.valuesList_ok (storeOf_lawful vt) f3.wf

theorem fromEnd_ok {X : Type} {l : List X} {k : Nat} (h1 : 1 ≤ k) (h2 : k ≤ l.length) : ∃ x ∈ l, fromEnd l k = .ok x := by
  have h : l.length - k < l.length := by omega
  refine ⟨l[l.length - k], List.getElem_mem h, ?_⟩
  rw [fromEnd, if_pos h2, List.getElem?_eq_getElem h]

theorem stop_ok {prior : DagModel (Factor II) V S} {B0 : BN V S K} {T : List V} (kl : List (Fl K) → List (Fl K) → Bool)
    {c : EM II} {evo : List (DagModel (Factor II) V S)} (hT : ∀ v ∈ c.trainable, v ∈ B0.nodes) (hl : 2 ≤ evo.length)
    (he : ∀ m ∈ evo, Learnt prior B0 T m) : ∃ conv b, stop kl c evo = .ok ({ c with converged := conv }, b) := by
  obtain ⟨m2, h2, e2⟩ := fromEnd_ok (l := evo) (k := 2) (by omega) hl
  obtain ⟨m1, h1, e1⟩ := fromEnd_ok (l := evo) (k := 1) (by omega) (by omega)
  have key : ∀ (vs : List V), (∀ v ∈ vs, v ∈ B0.nodes) → ∀ conv : List V, ∃ conv', vs.foldlM (fun conv v =>
      if v ∈ conv then (.ok conv : Py (List V)) else do
        let m1 ← fromEnd evo 2
        let p ← tableOf m1 v
        let m2 ← fromEnd evo 1
        let q ← tableOf m2 v
        if kl p q then return conv ++ [v] else return conv) conv = .ok conv' := by
    intro vs
    induction vs with
    | nil => intro _ conv; exact ⟨conv, rfl⟩
    | cons v vs ih =>
      intro hvs conv
      have ih' := ih fun w hw => hvs w (List.mem_cons_of_mem _ hw)
      obtain ⟨p, hp⟩ := (he m2 h2).tableOf (hvs v List.mem_cons_self)
      obtain ⟨q, hq⟩ := (he m1 h1).tableOf (hvs v List.mem_cons_self)
      rw [List.foldlM_cons]
      by_cases hc : v ∈ conv
      · rw [if_pos hc]
        exact ih' conv
      · rw [if_neg hc]
        simp only [e2, e1, py_ok_bind] at ih' ⊢
        simp only [hp, hq, py_ok_bind]
        split
        · exact ih' (conv ++ [v])
        · exact ih' conv
  obtain ⟨conv, hconv⟩ := key c.trainable hT c.converged
  refine ⟨conv, decide (SameSet c.trainable conv), ?_⟩
  rw [stop]
  rw [hconv]
  rfl

/-- State of the learner -/
structure ObjOk (ch : Choices V) (kl : List (Fl K) → List (Fl K) → Bool) (prior : DagModel (Factor II) V S) (B0 : BN V S K) (T : List V)
    (fr : Frame V S) (s : LObj (EM II) (DagModel (Factor II) V S)) : Prop where
  core : CoreOk prior B0 T fr s.core
  evo : ∀ m ∈ (learner ch kl).evolution s, Learnt prior B0 T m
  nonempty : (learner ch kl).evolution s ≠ []

theorem ObjOk.step {ch : Choices V} (hch : ch.Ok) {kl : List (Fl K) → List (Fl K) → Bool} {prior : DagModel (Factor II) V S}
    {B0 : BN V S K} (hp : PriorOk prior B0) {T : List V} {fr : Frame V S} (hd : RootData B0 prior.graph fr T)
    {s : LObj (EM II) (DagModel (Factor II) V S)} (h : ObjOk ch kl prior B0 T fr s) :
    ∃ s1 s2 b, (learner ch kl).step s = .ok s1 ∧ (learner ch kl).check s1 = .ok (s2, b) ∧ ObjOk ch kl prior B0 T fr s2 := by
  obtain ⟨c', c1, c2⟩ := h.core.update hch hp hd
  set s1 : LObj (EM II) (DagModel (Factor II) V S) := (learner ch kl).record { s with core := c' } with hs1
  have hstep : (learner ch kl).step s = .ok s1 := by
    rw [Learner.step]
    show (EM.update ch s.core >>= _) = _
    rw [c1]; rfl
  have hev : (learner ch kl).evolution s1 = (learner ch kl).evolution s ++ [c'.model] := by
    show (learner ch kl).evolution { s with core := c' } ++ [c'.model] = _
    congr 1
    show s.evo.getD [c'.prior] = s.evo.getD [s.core.prior]
    rw [c2.isPrior, h.core.isPrior]
  have hall : ∀ m ∈ (learner ch kl).evolution s1, Learnt prior B0 T m := by
    intro m hm
    rw [hev] at hm
    rcases List.mem_append.1 hm with hm | hm
    · exact h.evo m hm
    · obtain rfl : m = c'.model := by simpa using hm
      exact c2.learnt
  have hlen : 2 ≤ ((learner ch kl).evolution s1).length := by
    rw [hev]
    have := List.length_pos_iff.2 h.nonempty
    simp; omega
  obtain ⟨conv, b, k1⟩ := stop_ok kl (c := c') (by rw [c2.trainable]; exact hd.nodes) hlen hall
  refine ⟨s1, ⟨{ c' with converged := conv }, some ((learner ch kl).evolution s1)⟩, b, hstep, ?_, ?_⟩
  · rw [Learner.check]
    show (EM.stop kl c' _ >>= _) = _
    rw [k1]; rfl
  · exact ⟨⟨c2.isPrior, c2.trainable, c2.data, c2.graph, c2.model⟩, hall, by
      intro hc
      have : (learner ch kl).evolution s1 = [] := hc
      rw [this] at hlen
      simp at hlen⟩

theorem ObjOk.loopF {ch : Choices V} (hch : ch.Ok) {kl : List (Fl K) → List (Fl K) → Bool} {prior : DagModel (Factor II) V S}
    {B0 : BN V S K} (hp : PriorOk prior B0) {T : List V} {fr : Frame V S} (hd : RootData B0 prior.graph fr T) (n : Nat)
    {s : LObj (EM II) (DagModel (Factor II) V S)} (h : ObjOk ch kl prior B0 T fr s) :
    ∃ s', (learner ch kl).loopF n s = .ok s' ∧ ObjOk ch kl prior B0 T fr s' := by
  induction n generalizing s with
  | zero => exact ⟨s, rfl, h⟩
  | succ n ih =>
    obtain ⟨s1, s2, b, h1, h2, h3⟩ := h.step hch hp hd
    rw [Learner.loopF, h1, py_ok_bind, h2, py_ok_bind]
    cases b with
    | true => exact ⟨s2, rfl, h3⟩
    | false => exact ih h3

theorem ObjOk.loop {ch : Choices V} (hch : ch.Ok) {kl : List (Fl K) → List (Fl K) → Bool} {prior : DagModel (Factor II) V S}
    {B0 : BN V S K} (hp : PriorOk prior B0) {T : List V} {fr : Frame V S} (hd : RootData B0 prior.graph fr T) {max : Option Nat} {i : Nat}
    {s s' : LObj (EM II) (DagModel (Factor II) V S)} (h : ObjOk ch kl prior B0 T fr s) (hl : (learner ch kl).Loop max i s s') :
    ObjOk ch kl prior B0 T fr s' := by
  induction hl with
  | done _ => exact h
  | stop _ k1 k2 =>
    obtain ⟨s1, s2, b, h1, h2, h3⟩ := h.step hch hp hd
    rw [h1] at k1; injection k1 with k1; subst k1
    rw [h2] at k2; injection k2 with k2; injection k2 with k2; subst k2
    exact h3
  | next _ k1 k2 _ ih =>
    obtain ⟨s1, s2, b, h1, h2, h3⟩ := h.step hch hp hd
    rw [h1] at k1; injection k1 with k1; subst k1
    rw [h2] at k2; injection k2 with k2; injection k2 with k2; subst k2
    exact ih h3

theorem ObjOk.init {ch : Choices V} {kl : List (Fl K) → List (Fl K) → Bool} {prior : DagModel (Factor II) V S} {B0 : BN V S K}
    (hr : Represents prior B0) (hB : B0.Valid) (hn : B0.Normalised) (hnn : B0.NonNeg) {T : List V} {fr : Frame V S}
    (hpos : ∀ r ∈ fr.rows, Possible B0 r) {s : LObj (EM II) (DagModel (Factor II) V S)} (hc : s.core.prior = prior)
    (hT : effective s.core.trainable B0.nodes fr = T) (he : ∀ l, s.evo = some l → l ≠ [] ∧ ∀ m ∈ l, Learnt prior B0 T m) :
    ∃ c', (learner ch kl).init s.core fr = .ok c' ∧ ObjOk ch kl prior B0 T (addMissing B0.nodes fr) { s with core := c' } := by
  obtain ⟨c', c1, c2⟩ := init_ok hr hB hn hnn hpos hc hT
  have hev : (learner ch kl).evolution { s with core := c' } = s.evo.getD [prior] := by
    show s.evo.getD [c'.prior] = _
    rw [c2.isPrior]
  refine ⟨c', c1, c2, ?_, ?_⟩
  · rw [hev]
    cases hs : s.evo with
    | none =>
      intro m hm
      obtain rfl : m = prior := by simpa using hm
      exact Learnt.refl hr hB hn hnn T
    | some l => exact (he l hs).2
  · rw [hev]
    cases hs : s.evo with
    | none => simp
    | some l => exact (he l hs).1

end EM
end
end Verif
