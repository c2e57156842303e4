import Verif.Props.Networks
import Verif.Net.DSep
import Verif.Inference.CausalLemmas

/-!
# Interventions and observations: helper lemmas

`B.cut d` is the network in which the children of the variables of `d` read the states of `d`, while these variables
keep their own tables.  Where the variables have the states of `d` it is the network without intervention; with the
variables summed out it is the network with the intervention.
-/

set_option linter.unusedSectionVars false
set_option linter.unusedSimpArgs false

namespace Verif
open Relation

variable {V S K : Type} [DecidableEq V] [DecidableEq S]

namespace BN

/-- The network in which the children of the variables of `d` read the states of `d`. -/
def cut (B : BN V S K) (d : Obs V S) : BN V S K where
  nodes := B.nodes
  parents v := (B.parents v).filter (· ∉ Dict.keys d)
  states := B.states
  table v a := B.table v (upd (over d a) v (a v))

section
variable [Inhabited S] [Field K] [LinearOrder K]

theorem over_agree {d : Obs V S} {a : V → S} (h : Agrees d a) : over d a = a := by
  funext v
  cases hd : Dict.get? d v with
  | some s => rw [over_of_get? hd, h v s hd]
  | none => rw [over, hd]; rfl

theorem over_not {d : Obs V S} {a : V → S} {v : V} (h : v ∉ Dict.keys d) : over d a v = a v := by
  rw [over, Dict.get?_eq_none.2 h]; rfl

theorem upd_eta {a : V → S} {v : V} : upd a v (a v) = a := by
  funext w
  by_cases h : w = v
  · subst h; exact upd_same _ _ _
  · exact upd_ne _ _ h

theorem Valid.cut {B : BN V S K} (hB : B.Valid) (d : Obs V S) : (B.cut d).Valid where
  nodes := hB.nodes
  parents v hv p hp := hB.parents v hv p (List.mem_filter.1 hp).1
  acyclic v h := hB.acyclic v (TransGen.mono (fun u w huw => ⟨huw.1, (List.mem_filter.1 huw.2).1⟩) _ _ h)
  nodupStates := hB.nodupStates
  nonempty := hB.nonempty
  scope := by
    intro v hv a b hab
    refine hB.scope v hv _ _ fun w hw => ?_
    by_cases h : w = v
    · subst h; rw [upd_same, upd_same]; exact hab w List.mem_cons_self
    · rw [upd_ne _ _ h, upd_ne _ _ h]
      cases hd : Dict.get? d w with
      | some s => rw [over_of_get? hd, over_of_get? hd]
      | none =>
        have hk := Dict.get?_eq_none.1 hd
        rw [over_not hk, over_not hk]
        exact hab w (List.mem_cons_of_mem _ (List.mem_filter.2 ⟨(List.mem_cons.1 hw).resolve_left h, by simpa using hk⟩))

theorem Normalised.cut {B : BN V S K} (hn : B.Normalised) {d : Obs V S} (hd : B.DoOk d) : (B.cut d).Normalised := by
  intro v hv a ha
  have hs : B.InStates (over d a) := by
    intro w hw
    cases h : Dict.get? d w with
    | some s => rw [over_of_get? h]; exact hd w s h hw
    | none => rw [over, h]; exact ha w hw
  rw [← hn v hv (over d a) hs]
  congr 1
  refine List.map_congr_left fun s _ => ?_
  show B.table v (upd (over d (upd a v s)) v (upd a v s v)) = _
  congr 1
  funext w
  by_cases h : w = v
  · subst h; rw [upd_same, upd_same, upd_same]
  · rw [upd_ne _ _ h, upd_ne _ _ h, over, over, upd_ne _ _ h]

/-- Where the variables have the states of `d` nothing changed. -/
theorem cut_marg {B : BN V S K} (hB : B.Valid) {d : Obs V S} {vs : List V} (hd : ∀ v ∈ Dict.keys d, v ∈ vs) {a : V → S}
    (ha : Agrees d a) : (B.cut d).marg vs a = B.marg vs a := by
  refine sumOver_congr (hB.nodes.filter _) fun b hb _ => ?_
  have : Agrees d b := by
    intro v s hs
    rw [hb v fun hc => ?_, ha v s hs]
    have := (List.mem_filter.1 hc).2
    simp [hd v (Dict.mem_keys_of_mem (Dict.mem_of_get? hs))] at this
  show (B.nodes.map fun v => B.table v (upd (over d b) v (b v))).prod = (B.nodes.map fun v => B.table v b).prod
  rw [over_agree this]
  simp only [upd_eta]

/-- Summing the others out of a marginal over a larger set. -/
theorem Valid.marg_sub {B : BN V S K} (hB : B.Valid) {vs ws : List V} (h : ∀ v ∈ B.nodes, v ∈ vs → v ∈ ws) (a : V → S) :
    B.marg vs a = sumOver B.states (B.nodes.filter fun v => v ∈ ws ∧ v ∉ vs) (B.marg ws) a := by
  rw [← hB.sum_marg (T := B.nodes.filter fun v => v ∈ ws ∧ v ∉ vs) (W := vs) (fun t ht => (List.mem_filter.1 ht).1) (hB.nodes.filter _)
    fun t ht => by have := (List.mem_filter.1 ht).2; simp at this; exact this.2]
  refine congrArg (fun f => sumOver B.states _ f a) (marg_congr_set fun v hv => ?_)
  simp only [List.mem_append, List.mem_filter, hv, true_and, decide_eq_true_eq]
  constructor
  · rintro (h1 | h1)
    · exact h1.1
    · exact h v hv h1
  · intro h1
    by_cases h2 : v ∈ vs
    · exact .inr h2
    · exact .inl ⟨h1, h2⟩

/-- With the variables summed out it is the intervention. -/
theorem cut_doMarg {B : BN V S K} (hB : B.Valid) (hn : B.Normalised) {d : Obs V S} (hd : B.DoOk d) (hk : ∀ v ∈ Dict.keys d, v ∈ B.nodes)
    {vs : List V} (hv : ∀ v ∈ vs, v ∉ Dict.keys d) {a : V → S} (ha : ∀ v ∈ vs, v ∈ B.nodes → a v ∈ B.states v) :
    (B.cut d).marg vs a = B.doMarg d vs a := by
  have hsub : ∀ v ∈ B.nodes, v ∈ vs → v ∈ B.nodes.filter (· ∉ Dict.keys d) := fun v h1 h2 =>
    List.mem_filter.2 ⟨h1, by simpa using hv v h2⟩
  rw [← doMarg_eq hk, (hB.cut d).marg_sub (ws := B.nodes.filter (· ∉ Dict.keys d)) hsub,
    (hB.doBN d).marg_sub (ws := B.nodes.filter (· ∉ Dict.keys d)) hsub]
  refine sumOver_congr (hB.nodes.filter _) fun b hb1 hb2 => ?_
  have hbs : ∀ v ∈ B.nodes.filter (· ∉ Dict.keys d), b v ∈ B.states v := by
    intro v h1
    by_cases h : v ∈ vs
    · rw [hb1 v fun hc => ?_]
      · exact ha v h (List.mem_filter.1 h1).1
      · have := (List.mem_filter.1 hc).2
        simp [h] at this
    · exact hb2 v (List.mem_filter.2 ⟨(List.mem_filter.1 h1).1, by simp only [decide_eq_true_eq]; exact ⟨h1, h⟩⟩)
  have hanc : ∀ v ∈ B.nodes.filter (· ∉ Dict.keys d), ∀ p ∈ (B.cut d).parents v, p ∈ B.nodes.filter (· ∉ Dict.keys d) := fun v h1 p hp =>
    List.mem_filter.2 ⟨hB.parents v (List.mem_filter.1 h1).1 p (List.mem_filter.1 hp).1, (List.mem_filter.1 hp).2⟩
  rw [Props.C29_ancestral (hB.cut d) (hn.cut hd) (hB.nodes.filter _) (fun v h1 => (List.mem_filter.1 h1).1) hanc hbs,
    doMarg_eq hk, ← doMarg_over hB hd hk (ws := B.nodes) (fun v hv => by simp [hv]; tauto)
      (fun v hv s hs => absurd (Dict.mem_keys_of_mem (Dict.mem_of_get? hs)) (by simpa using (List.mem_filter.1 hv).2))]
  have h0 : B.nodes.filter (· ∉ B.nodes) = [] := List.filter_eq_nil_iff.2 fun v hv => by simpa using hv
  have hag : Agrees d (over d b) := fun v s hs => over_of_get? hs
  rw [doMarg, h0, sumOver_nil, doJoint, if_pos hag, trunc]
  congr 1
  refine List.map_congr_left fun v h1 => ?_
  have hvd : v ∉ Dict.keys d := by simpa using (List.mem_filter.1 h1).2
  show B.table v (upd (over d b) v (b v)) = _
  rw [← over_not (d := d) (a := b) hvd, upd_eta]

/-- Observing and imposing the states of `d` are the same for `T` given `W` when no path into the variables of `d` connects
them with `T`. -/
theorem exchange {B : BN V S K} (hB : B.Valid) (hn : B.Normalised) {g : DiGraph V} (hg : g.WF) (hgn : g.nodes = B.nodes)
    (hge : ∀ v ∈ B.nodes, ∀ p, p ∈ B.parents v ↔ (p, v) ∈ g.edges) {d : Obs V S} (hd : B.DoOk d) (hk : ∀ v ∈ Dict.keys d, v ∈ B.nodes)
    {T W : List V} (hT : ∀ v ∈ T, v ∈ B.nodes ∧ v ∉ Dict.keys d) (hW : ∀ v ∈ W, v ∈ B.nodes ∧ v ∉ Dict.keys d)
    (hs : (g.removeOutgoing (Dict.keys d)).dSeparated T (Dict.keys d) W = true) {a : V → S} (ha : B.InStates a) (hag : Agrees d a) :
    B.marg (T ++ (Dict.keys d ++ W)) a * B.doMarg d W a = B.doMarg d (T ++ W) a * B.marg (Dict.keys d ++ W) a := by
  have h := dsep_margs (hB.cut d) (hn.cut hd) (hg.removeOutgoing _) hgn (fun v hv p => ?_) (fun t ht => (hT t ht).1) hk (fun t ht => (hW t ht).1)
    hs (a := a) ha
  · rw [cut_marg hB (vs := T ++ (Dict.keys d ++ W)) (fun v hv => by simp [hv]) hag, cut_marg hB (vs := Dict.keys d ++ W) (fun v hv => by simp [hv]) hag,
      cut_doMarg hB hn hd hk (fun v hv => (hW v hv).2) (fun v _ hv => ha v hv),
      cut_doMarg hB hn hd hk (fun v hv => (List.mem_append.1 hv).elim (fun h => (hT v h).2) fun h => (hW v h).2) (fun v _ hv => ha v hv)] at h
    exact h
  · show p ∈ (B.parents v).filter (· ∉ Dict.keys d) ↔ (p, v) ∈ g.edges.filter fun e => e.1 ∉ Dict.keys d
    rw [List.mem_filter, List.mem_filter, hge v hv]

/-- Imposing states has no effect on the variables that are not reached from the variables of `d`. -/
theorem noEffect {B : BN V S K} (hB : B.Valid) (hn : B.Normalised) {d : Obs V S} (hd : B.DoOk d) (hk : ∀ v ∈ Dict.keys d, v ∈ B.nodes)
    {Z : List V} (hr : ∀ z ∈ Z, ∀ x ∈ Dict.keys d, ¬ ReflTransGen (fun u w => w ∈ B.nodes ∧ u ∈ B.parents w) x z) {a : V → S}
    (ha : ∀ v ∈ Z, v ∈ B.nodes → a v ∈ B.states v) : B.doMarg d Z a = B.marg Z a := by
  classical
  let A := B.nodes.filter fun v => ∃ z ∈ Z, ReflTransGen (fun u w => w ∈ B.nodes ∧ u ∈ B.parents w) v z
  have hA : ∀ v, v ∈ A ↔ v ∈ B.nodes ∧ ∃ z ∈ Z, ReflTransGen (fun u w => w ∈ B.nodes ∧ u ∈ B.parents w) v z := fun v => by simp [A]
  have hsub : ∀ v ∈ B.nodes, v ∈ Z → v ∈ A := fun v h1 h2 => (hA v).2 ⟨h1, v, h2, .refl⟩
  have hAd : ∀ v ∈ A, v ∉ Dict.keys d := by
    intro v hv hc
    obtain ⟨_, z, hz, h⟩ := (hA v).1 hv
    exact hr z hz v hc h
  have hanc : ∀ v ∈ A, ∀ p ∈ B.parents v, p ∈ A := by
    intro v hv p hp
    obtain ⟨h1, z, hz, h⟩ := (hA v).1 hv
    exact (hA p).2 ⟨hB.parents v h1 p hp, z, hz, .head ⟨h1, hp⟩ h⟩
  rw [← doMarg_eq hk, (hB.doBN d).marg_sub (ws := A) hsub, hB.marg_sub (ws := A) hsub]
  refine sumOver_congr (hB.nodes.filter _) fun b hb1 hb2 => ?_
  have hbs : ∀ v ∈ A, b v ∈ B.states v := by
    intro v h1
    by_cases h : v ∈ Z
    · rw [hb1 v fun hc => ?_]
      · exact ha v h ((hA v).1 h1).1
      · have := (List.mem_filter.1 hc).2
        simp [h] at this
    · exact hb2 v (List.mem_filter.2 ⟨((hA v).1 h1).1, by simp only [decide_eq_true_eq]; exact ⟨h1, h⟩⟩)
  rw [Props.C29_ancestral (hB.doBN d) (Normalised.doBN hB hn hd) (hB.nodes.filter _) (fun v h1 => ((hA v).1 h1).1)
      (fun v hv p hp => by
        have : (B.doBN d).parents v = B.parents v := if_neg (hAd v hv)
        rw [this] at hp
        exact hanc v hv p hp) hbs,
    Props.C29_ancestral hB hn (hB.nodes.filter _) (fun v h1 => ((hA v).1 h1).1) hanc hbs]
  congr 1
  refine List.map_congr_left fun v hv => ?_
  show (match Dict.get? d v with | some s => _ | none => _) = _
  rw [Dict.get?_eq_none.2 (hAd v hv)]

end
end BN
end Verif

namespace Verif
namespace BN
variable {V S K : Type} [DecidableEq V] [DecidableEq S] [Inhabited S] [Field K] [LinearOrder K]

/-- An assignment whose states matter on some nodes only can be completed. -/
theorem Valid.complete {B : BN V S K} (hB : B.Valid) {L : List V} {a : V → S} (ha : ∀ v ∈ L, v ∈ B.nodes → a v ∈ B.states v) :
    ∃ b, B.InStates b ∧ ∀ v ∈ L, b v = a v := by
  classical
  refine ⟨fun v => if v ∈ L ∨ v ∉ B.nodes then a v else (B.states v).headD default, fun v hv => ?_, fun v hv => if_pos (.inl hv)⟩
  show (if v ∈ L ∨ v ∉ B.nodes then a v else _) ∈ _
  by_cases h : v ∈ L
  · rw [if_pos (.inl h)]; exact ha v h hv
  · rw [if_neg (by simp [h, hv])]
    have := hB.nonempty v hv
    cases hs : B.states v with
    | nil => exact absurd hs this
    | cons s l => exact List.mem_cons_self

theorem keys_append (d e : Obs V S) : Dict.keys (d ++ e) = Dict.keys d ++ Dict.keys e := by simp [Dict.keys]

theorem get?_append_left {d e : Obs V S} {v : V} (h : v ∈ Dict.keys d) : Dict.get? (d ++ e) v = Dict.get? d v := by
  obtain ⟨s, hs⟩ := Option.isSome_iff_exists.1 (Dict.get?_isSome.2 h)
  rw [Dict.get?_append, hs]; rfl

theorem get?_append_right {d e : Obs V S} {v : V} (h : v ∉ Dict.keys d) : Dict.get? (d ++ e) v = Dict.get? e v := by
  rw [Dict.get?_append, Dict.get?_eq_none.2 h]; rfl

/-- Two interventions on different variables are one. -/
theorem doBN_append {B : BN V S K} {d e : Obs V S} (h : ∀ v ∈ Dict.keys d, v ∉ Dict.keys e) (v : V) (a : V → S) :
    ((B.doBN d).doBN e).table v a = (B.doBN (d ++ e)).table v a := by
  by_cases hd : v ∈ Dict.keys d
  · simp only [doBN, get?_append_left hd, Dict.get?_eq_none.2 (h v hd)]
  · simp only [doBN, get?_append_right hd, Dict.get?_eq_none.2 hd]

theorem doMarg_append {B : BN V S K} {d e : Obs V S} (h : ∀ v ∈ Dict.keys d, v ∉ Dict.keys e) (hd : ∀ v ∈ Dict.keys d, v ∈ B.nodes)
    (he : ∀ v ∈ Dict.keys e, v ∈ B.nodes) (vs : List V) (a : V → S) : (B.doBN d).doMarg e vs a = B.doMarg (d ++ e) vs a := by
  rw [← doMarg_eq (B := B.doBN d) he, ← doMarg_eq (fun v hv => by
    rw [keys_append, List.mem_append] at hv
    exact hv.elim (hd v) (he v))]
  refine sumOver_congr' (fun b => ?_) a
  simp only [joint, doBN_append h]
  rfl

/-- The graph of the network with an intervention. -/
theorem doBN_edges {B : BN V S K} {g : DiGraph V} (hge : ∀ v ∈ B.nodes, ∀ p, p ∈ B.parents v ↔ (p, v) ∈ g.edges) (d : Obs V S) :
    ∀ v ∈ (B.doBN d).nodes, ∀ p, p ∈ (B.doBN d).parents v ↔ (p, v) ∈ (g.removeIngoing (Dict.keys d)).edges := by
  intro v hv p
  show p ∈ (if v ∈ Dict.keys d then [] else B.parents v) ↔ (p, v) ∈ g.edges.filter fun e => e.2 ∉ Dict.keys d
  rw [List.mem_filter, ← hge v hv p]
  by_cases h : v ∈ Dict.keys d <;> simp [h]

/-- A second intervention can be an observation. -/
theorem exchange_do {B : BN V S K} (hB : B.Valid) (hn : B.Normalised) {g : DiGraph V} (hg : g.WF) (hgn : g.nodes = B.nodes)
    (hge : ∀ v ∈ B.nodes, ∀ p, p ∈ B.parents v ↔ (p, v) ∈ g.edges) {d e : Obs V S} (hd : B.DoOk d) (he : B.DoOk e)
    (hdk : ∀ v ∈ Dict.keys d, v ∈ B.nodes ∧ v ∉ Dict.keys e) (hek : ∀ v ∈ Dict.keys e, v ∈ B.nodes)
    {T E : List V} (hT : ∀ v ∈ T, v ∈ B.nodes ∧ v ∉ Dict.keys e) (hE : ∀ v ∈ E, v ∈ B.nodes ∧ v ∉ Dict.keys e)
    (hs : ((g.removeIngoing (Dict.keys d)).removeOutgoing (Dict.keys e)).dSeparated T (Dict.keys e) (E ++ Dict.keys d) = true) {a : V → S}
    (ha : B.InStates a) (hda : Agrees d a) (hea : Agrees e a) :
    B.doMarg d (T ++ (Dict.keys e ++ E)) a * B.doMarg (d ++ e) E a = B.doMarg (d ++ e) (T ++ E) a * B.doMarg d (Dict.keys e ++ E) a := by
  have hd' : ∀ v ∈ Dict.keys d, v ∈ B.nodes := fun v hv => (hdk v hv).1
  have h := exchange (hB.doBN d) (Normalised.doBN hB hn hd) (hg.removeIngoing _) hgn (doBN_edges hge d) (d := e) he hek hT
    (W := E ++ Dict.keys d) (fun v hv => (List.mem_append.1 hv).elim (hE v) (hdk v)) hs ha hea
  have key : ∀ vs, B.doMarg d (vs ++ Dict.keys d) a = B.doMarg d vs a := fun vs => by
    have := doMarg_over hB hd hd' (vs := vs) (ws := vs ++ Dict.keys d) (fun v _ => List.mem_append) (a := a) (fun v _ s hs => hda v s hs)
    rwa [over_agree hda] at this
  have hde : B.DoOk (d ++ e) := by
    intro v s hs hv
    by_cases h : v ∈ Dict.keys d
    · rw [get?_append_left h] at hs; exact hd v s hs hv
    · rw [get?_append_right h] at hs; exact he v s hs hv
  have hag : Agrees (d ++ e) a := by
    intro v s hs
    by_cases h : v ∈ Dict.keys d
    · rw [get?_append_left h] at hs; exact hda v s hs
    · rw [get?_append_right h] at hs; exact hea v s hs
  have hk : ∀ v ∈ Dict.keys (d ++ e), v ∈ B.nodes := fun v hv => by
    rw [keys_append, List.mem_append] at hv
    exact hv.elim (hd' v) (hek v)
  have key2 : ∀ vs, B.doMarg (d ++ e) (vs ++ Dict.keys d) a = B.doMarg (d ++ e) vs a := fun vs => by
    have h1 := doMarg_over hB hde hk (vs := vs) (ws := vs ++ Dict.keys (d ++ e)) (fun v _ => List.mem_append) (a := a) (fun v _ s hs => hag v s hs)
    have h2 := doMarg_over hB hde hk (vs := vs ++ Dict.keys d) (ws := vs ++ Dict.keys (d ++ e))
      (fun v _ => by simp only [keys_append, List.mem_append]; tauto) (a := a) (fun v _ s hs => hag v s hs)
    rw [← h1, ← h2]
  rw [doMarg_eq hd', doMarg_eq hd', doMarg_append (fun v hv => (hdk v hv).2) hd' hek, doMarg_append (fun v hv => (hdk v hv).2) hd' hek,
    show T ++ (Dict.keys e ++ (E ++ Dict.keys d)) = (T ++ (Dict.keys e ++ E)) ++ Dict.keys d by simp only [List.append_assoc], key, key2,
    ← List.append_assoc T E, key2, ← List.append_assoc (Dict.keys e), key] at h
  exact h

/-- A separated observation can be dropped. -/
theorem observe_do {B : BN V S K} (hB : B.Valid) (hn : B.Normalised) {g : DiGraph V} (hg : g.WF) (hgn : g.nodes = B.nodes)
    (hge : ∀ v ∈ B.nodes, ∀ p, p ∈ B.parents v ↔ (p, v) ∈ g.edges) {d : Obs V S} (hd : B.DoOk d)
    (hdk : ∀ v ∈ Dict.keys d, v ∈ B.nodes) {T Y E : List V} (hT : ∀ v ∈ T, v ∈ B.nodes) (hY : ∀ v ∈ Y, v ∈ B.nodes) (hE : ∀ v ∈ E, v ∈ B.nodes)
    (hs : (g.removeIngoing (Dict.keys d)).dSeparated T Y (E ++ Dict.keys d) = true) {a : V → S}
    (ha : B.InStates a) (hda : Agrees d a) :
    B.doMarg d (T ++ (Y ++ E)) a * B.doMarg d E a = B.doMarg d (T ++ E) a * B.doMarg d (Y ++ E) a := by
  have h := dsep_margs (hB.doBN d) (Normalised.doBN hB hn hd) (hg.removeIngoing _) hgn (doBN_edges hge d) hT hY
    (fun v hv => (List.mem_append.1 hv).elim (hE v) (hdk v)) hs (a := a) ha
  have key : ∀ vs, B.doMarg d (vs ++ Dict.keys d) a = B.doMarg d vs a := fun vs => by
    have := doMarg_over hB hd hdk (vs := vs) (ws := vs ++ Dict.keys d) (fun v _ => List.mem_append) (a := a) (fun v _ s hs => hda v s hs)
    rwa [over_agree hda] at this
  rw [doMarg_eq hdk, doMarg_eq hdk, doMarg_eq hdk, doMarg_eq hdk,
    show T ++ (Y ++ (E ++ Dict.keys d)) = (T ++ (Y ++ E)) ++ Dict.keys d by simp only [List.append_assoc], key, key,
    ← List.append_assoc T E, key, ← List.append_assoc Y, key] at h
  exact h

/-- An intervention on variables from which the others are not reached can be dropped. -/
theorem noEffect_do {B : BN V S K} (hB : B.Valid) (hn : B.Normalised) {g : DiGraph V}
    (hge : ∀ v ∈ B.nodes, ∀ p, p ∈ B.parents v ↔ (p, v) ∈ g.edges) {d e : Obs V S} (hd : B.DoOk d) (he : B.DoOk e)
    (hdk : ∀ v ∈ Dict.keys d, v ∈ B.nodes ∧ v ∉ Dict.keys e) (hek : ∀ v ∈ Dict.keys e, v ∈ B.nodes) {Z : List V}
    (hr : ∀ z ∈ Z, ∀ x ∈ Dict.keys e, ¬ Relation.ReflTransGen (fun u w => (u, w) ∈ (g.removeIngoing (Dict.keys d)).edges) x z) {a : V → S}
    (ha : ∀ v ∈ Z, v ∈ B.nodes → a v ∈ B.states v) : B.doMarg (d ++ e) Z a = B.doMarg d Z a := by
  rw [← doMarg_append (fun v hv => (hdk v hv).2) (fun v hv => (hdk v hv).1) hek, ← doMarg_eq (fun v hv => (hdk v hv).1)]
  refine noEffect (hB.doBN d) (Normalised.doBN hB hn hd) he hek (fun z hz x hx hc => hr z hz x hx ?_) ha
  exact Relation.ReflTransGen.mono (fun u w h => (doBN_edges hge d w h.1 u).1 h.2) _ _ hc

end BN
end Verif
