import Verif.Net.Twin
import Verif.Net.Solution

/-!
# Solutions in several worlds: helper lemmas

A solution of the equations of the fused network is one solution per world.
-/

set_option linter.unusedSectionVars false
set_option linter.unusedSimpArgs false

namespace Verif

variable {V S K : Type} [DecidableEq V] [DecidableEq S] [Inhabited S] [Field K] [LinearOrder K] [IsStrictOrderedRing K]

theorem sumOver_congr_states {D E : V → List S} {xs : List V} (h : ∀ x ∈ xs, D x = E x) (f : (V → S) → K) (a : V → S) :
    sumOver D xs f a = sumOver E xs f a := by
  induction xs generalizing a with
  | nil => rfl
  | cons x xs ih =>
    rw [sumOver_cons, sumOver_cons, h x List.mem_cons_self]
    congr 1
    exact List.map_congr_left fun s _ => ih (fun y hy => h y (List.mem_cons_of_mem _ hy)) _

namespace BN

theorem Agrees.congr {d : Obs V S} {a b : V → S} (h : Agrees d a) (hab : ∀ v ∈ Dict.keys d, a v = b v) : Agrees d b := by
  intro v s hs
  rw [← hab v (Dict.mem_keys_of_mem (Dict.mem_of_get? hs))]
  exact h v s hs

theorem Solves.congr {B : BN V S K} (hB : B.Valid) {endo : List V} (he : ∀ v ∈ endo, v ∈ B.nodes) {d : Obs V S} {a b : V → S}
    (h : B.Solves endo d a) (hab : ∀ v ∈ B.nodes, a v = b v) : B.Solves endo d b := by
  intro v hv
  obtain ⟨h1, h2, h3⟩ := h v hv
  rw [← hab v (he v hv)]
  exact ⟨h1, h2, fun hd => by rw [← hB.table_congr (he v hv) hab]; exact h3 hd⟩

theorem solves_iff {B : BN V S K} {endo : List V} {d : Obs V S} {b : V → S} :
    B.Solves endo d b ↔ (B.doBN d).Sol endo b := by
  constructor
  · intro h v hv
    obtain ⟨h1, h2, h3⟩ := h v hv
    refine ⟨h1, ?_⟩
    show (match Dict.get? d v with | some s => if b v = s then (1 : K) else 0 | none => B.table v b) = 1
    cases hd : Dict.get? d v with
    | none => exact h3 hd
    | some s => exact if_pos (h2 s hd)
  · intro h v hv
    obtain ⟨h1, h2⟩ := h v hv
    have h2 : (match Dict.get? d v with | some s => if b v = s then (1 : K) else 0 | none => B.table v b) = 1 := h2
    refine ⟨h1, fun s hs => ?_, fun hd => ?_⟩
    · rw [hs] at h2
      by_contra hc
      exact zero_ne_one ((if_neg hc).symm.trans h2)
    · rw [hd] at h2; exact h2

namespace TwinOk
variable {B : BN V S K} {exo endo : List V} {sfx : V → Nat → V} {dos : List (Obs V S)} {nodes : List V}



/-- Solutions of the fused network. -/
theorem sol_iff (h : B.TwinOk exo endo sfx dos) (hg : GlueOk B (B.twins endo sfx dos) exo nodes) {b : V → S} :
    (glue B (B.twins endo sfx dos) nodes).Sol (twinEndo endo sfx dos) b ↔
      B.Solves endo [] b ∧ ∀ p ∈ dos.zipIdx, B.Solves endo p.1 fun w => b (copyName sfx endo (p.2 + 1) w) := by
  constructor
  · intro hs
    refine ⟨fun v hv => ?_, fun p hp => solves_iff.2 fun v hv => ?_⟩
    · have := hs v (mem_twinEndo.2 (.inl hv))
      rw [(h.table_endo hg hv).1, (h.table_endo hg hv).2] at this
      exact ⟨this.1, fun s hs => (by cases hs), fun _ => this.2⟩
    · have := hs (sfx v (p.2 + 1)) (mem_twinEndo.2 (.inr ⟨p, hp, v, hv, rfl⟩))
      rw [(h.table_copy hg hv hp).1, (h.table_copy hg hv hp).2] at this
      rw [copy_endo hv]
      exact this
  · rintro ⟨h0, hp0⟩ w hw
    rcases mem_twinEndo.1 hw with hv | ⟨p, hp, v, hv, rfl⟩
    · rw [(h.table_endo hg hv).1, (h.table_endo hg hv).2]
      obtain ⟨h1, _, h3⟩ := h0 w hv
      exact ⟨h1, h3 rfl⟩
    · rw [(h.table_copy hg hv hp).1, (h.table_copy hg hv hp).2]
      have := solves_iff.1 (hp0 p hp) v hv
      rw [copy_endo hv] at this
      exact this

open Classical in
/-- One solution per world gives a solution of the fused network. -/
theorem join (h : B.TwinOk exo endo sfx dos) (u b0 : V → S) (bs : Obs V S × Nat → V → S) (h0 : ∀ x ∈ exo, b0 x = u x)
    (hs : ∀ p ∈ dos.zipIdx, ∀ x ∈ exo, bs p x = u x) :
    ∃ b : V → S, (∀ v ∈ B.nodes, b v = b0 v) ∧ ∀ p ∈ dos.zipIdx, ∀ v ∈ B.nodes, b (copyName sfx endo (p.2 + 1) v) = bs p v := by
  refine ⟨fun w => if hw : w ∉ B.nodes ∧ ∃ q : (Obs V S × Nat) × V, q.1 ∈ dos.zipIdx ∧ q.2 ∈ endo ∧ w = sfx q.2 (q.1.2 + 1)
    then bs hw.2.choose.1 hw.2.choose.2 else b0 w, fun v hv => ?_, fun p hp v hv => ?_⟩
  · exact dif_neg fun hc => hc.1 hv
  · have hlt := (mem_zipIdx hp).2.1
    rcases (h.mem_nodes v).1 hv with hx | he
    · rw [h.copy_exo hx, hs p hp v hx, ← h0 v hx]
      exact dif_neg fun hc => hc.1 hv
    · rw [copy_endo he]
      have hw : sfx v (p.2 + 1) ∉ B.nodes ∧ ∃ q : (Obs V S × Nat) × V, q.1 ∈ dos.zipIdx ∧ q.2 ∈ endo ∧ sfx v (p.2 + 1) = sfx q.2 (q.1.2 + 1) :=
        ⟨h.fresh v he _ (by omega) (by omega), (p, v), hp, he, rfl⟩
      refine (dif_pos hw).trans ?_
      obtain ⟨c1, c2, c3⟩ := hw.2.choose_spec
      have hlt' := (mem_zipIdx c1).2.1
      obtain ⟨e1, e2⟩ := h.inj v he _ c2 _ _ (by omega) (by omega) (by omega) (by omega) c3
      have e3 : p = hw.2.choose.1 := zipIdx_ext hp c1 (by omega)
      rw [← e1, ← e3]

/-- Observations in the worlds. -/
theorem holds_iff (h : B.TwinOk exo endo sfx dos) (hg : GlueOk B (B.twins endo sfx dos) exo nodes) {u : V → S} {c0 : Obs V S}
    {cs : Obs V S × Nat → Obs V S} (hc0 : ∀ v ∈ Dict.keys c0, v ∈ B.nodes) (hcs : ∀ p ∈ dos.zipIdx, ∀ v ∈ Dict.keys (cs p), v ∈ B.nodes) :
    (∃ b, (∀ x ∈ exo, b x = u x) ∧ (glue B (B.twins endo sfx dos) nodes).Sol (twinEndo endo sfx dos) b ∧ Agrees c0 b ∧
      ∀ p ∈ dos.zipIdx, Agrees (cs p) fun w => b (copyName sfx endo (p.2 + 1) w)) ↔
    ∀ w ∈ ([], c0) :: dos.zipIdx.map (fun p => (p.1, cs p)), B.Holds exo endo u w := by
  constructor
  · rintro ⟨b, h1, h2, h3, h4⟩ w hw
    obtain ⟨s0, sp⟩ := (h.sol_iff hg).1 h2
    rcases List.mem_cons.1 hw with rfl | hw
    · exact ⟨b, h1, s0, h3⟩
    · obtain ⟨p, hp, rfl⟩ := List.mem_map.1 hw
      exact ⟨_, fun x hx => by rw [h.copy_exo hx]; exact h1 x hx, sp p hp, h4 p hp⟩
  · intro hw
    obtain ⟨b0, a1, a2, a3⟩ := hw ([], c0) List.mem_cons_self
    have hp' : ∀ p ∈ dos.zipIdx, ∃ b, (∀ x ∈ exo, b x = u x) ∧ B.Solves endo p.1 b ∧ Agrees (cs p) b :=
      fun p hp => hw (p.1, cs p) (List.mem_cons_of_mem _ (List.mem_map_of_mem hp))
    choose! bs hbs using hp'
    obtain ⟨b, e0, es⟩ := h.join u b0 bs a1 fun p hp => (hbs p hp).1
    refine ⟨b, fun x hx => ?_, (h.sol_iff hg).2 ⟨?_, fun p hp => ?_⟩, ?_, fun p hp => ?_⟩
    · rw [e0 x ((h.mem_nodes x).2 (.inl hx))]; exact a1 x hx
    · exact a2.congr h.valid h.endo_nodes fun v hv => (e0 v hv).symm
    · exact (hbs p hp).2.1.congr h.valid h.endo_nodes fun v hv => (es p hp v hv).symm
    · exact a3.congr fun v hv => (e0 v (hc0 v hv)).symm
    · exact (hbs p hp).2.2.congr fun v hv => (es p hp v (hcs p hp v hv)).symm

theorem glue_eqs (h : B.TwinOk exo endo sfx dos) (hn : nodes.Nodup)
    (hm : ∀ w, w ∈ nodes ↔ w ∈ B.nodes ∨ ∃ p ∈ dos.zipIdx, ∃ v ∈ endo, w = sfx v (p.2 + 1)) :
    (glue B (B.twins endo sfx dos) nodes).Eqs (twinEndo endo sfx dos) where
  valid := (h.glueOk hn hm).glueValid
  norm := h.normalised (h.glueOk hn hm)
  nodup := (List.nodup_append'.1 h.nodup_twinEndo).2.1
  nodes := fun v hv => (h.glue_perm hn hm).mem_iff.2 (List.mem_append_right _ hv)
  zeroOne := h.glue_zeroOne (h.glueOk hn hm)

/-- Marginals of the fused network are counterfactual probabilities. -/
theorem marg (h : B.TwinOk exo endo sfx dos) (hn : nodes.Nodup)
    (hm : ∀ w, w ∈ nodes ↔ w ∈ B.nodes ∨ ∃ p ∈ dos.zipIdx, ∃ v ∈ endo, w = sfx v (p.2 + 1)) {vs : List V} {a : V → S}
    (hvs : ∀ v ∈ vs, v ∈ nodes) (ha : ∀ v ∈ vs, a v ∈ (glue B (B.twins endo sfx dos) nodes).states v) {c0 : Obs V S}
    {cs : Obs V S × Nat → Obs V S} (hc0 : ∀ v ∈ Dict.keys c0, v ∈ B.nodes) (hcs : ∀ p ∈ dos.zipIdx, ∀ v ∈ Dict.keys (cs p), v ∈ B.nodes)
    (hlink : ∀ b : V → S, B.Solves endo [] b → (∀ p ∈ dos.zipIdx, B.Solves endo p.1 fun w => b (copyName sfx endo (p.2 + 1) w)) →
      ((∀ v ∈ vs, b v = a v) ↔ Agrees c0 b ∧ ∀ p ∈ dos.zipIdx, Agrees (cs p) fun w => b (copyName sfx endo (p.2 + 1) w))) :
    (glue B (B.twins endo sfx dos) nodes).marg vs a = B.cfProb exo endo (([], c0) :: dos.zipIdx.map (fun p => (p.1, cs p))) := by
  classical
  have hg := h.glueOk hn hm
  have hx : ∀ x ∈ exo, (glue B (B.twins endo sfx dos) nodes).parents x = [] := fun x hx => by
    rw [hg.parents_eq List.mem_cons_self ((h.mem_nodes x).2 (.inl hx))]; exact h.roots x hx
  rw [(h.glue_eqs hn hm).marg (h.glue_perm hn hm) hx hvs ha fun _ => default, cfProb,
    sumOver_congr_states fun x hx => hg.states_eq List.mem_cons_self ((h.mem_nodes x).2 (.inl hx))]
  refine sumOver_congr' (fun u => ?_) _
  have e : (∃ b : V → S, (∀ x ∈ exo, b x = u x) ∧ (glue B (B.twins endo sfx dos) nodes).Sol (twinEndo endo sfx dos) b ∧ ∀ v ∈ vs, b v = a v) ↔
      ∀ w ∈ ([], c0) :: dos.zipIdx.map (fun p => (p.1, cs p)), B.Holds exo endo u w := by
    rw [← h.holds_iff hg hc0 hcs]
    refine exists_congr fun b => and_congr_right fun _ => and_congr_right fun hs => ?_
    obtain ⟨s0, sp⟩ := (h.sol_iff hg).1 hs
    exact hlink b s0 sp
  have et : (exo.map fun x => (glue B (B.twins endo sfx dos) nodes).table x u).prod = (exo.map fun x => B.table x u).prod := by
    congr 1
    exact List.map_congr_left fun x hx => by rw [hg.table_on hx]
  simp only [e, et]

/-- Each world has a solution. -/
theorem holds_nil (h : B.TwinOk exo endo sfx dos) {d : Obs V S} (hd : d ∈ dos ∨ d = []) {u : V → S} (hu : ∀ x ∈ exo, u x ∈ B.states x) :
    B.Holds exo endo u (d, []) := by
  have hdo : B.DoOk d := by
    rcases hd with hd | rfl
    · exact h.doOk d hd
    · intro v s hs; cases hs
  have he : (B.doBN d).Eqs endo := ⟨h.valid.doBN d, BN.Normalised.doBN h.valid h.norm hdo, h.nodup.2.1, h.endo_nodes,
    fun v hv a ha => BN.doBN_zero_one fun _ => h.zeroOne v hv a ha⟩
  obtain ⟨a, h1, h2⟩ : ∃ a, (∀ x ∈ exo, a x = u x) ∧ B.InStates a := by
    refine ⟨fun v => if v ∈ exo then u v else (B.states v).headD default, fun x hx => if_pos hx, fun v hv => ?_⟩
    show (if v ∈ exo then u v else (B.states v).headD default) ∈ _
    split
    · rename_i hx; exact hu v hx
    · have hne := h.valid.nonempty v hv
      cases hs : B.states v with
      | nil => exact absurd hs hne
      | cons s l => simp
  obtain ⟨b, b1, b2⟩ := he.exists_sol (a := a) h2
  exact ⟨b, fun x hx => (b1 x (h.nodup.2.2 x hx)).trans (h1 x hx), solves_iff.2 b2, fun v s hs => by cases hs⟩

end TwinOk

theorem cfProb_congr {B : BN V S K} {exo endo : List V} (hx : exo.Nodup) {ws ws' : List (Obs V S × Obs V S)}
    (h : ∀ u : V → S, (∀ x ∈ exo, u x ∈ B.states x) → ((∀ w ∈ ws, B.Holds exo endo u w) ↔ ∀ w ∈ ws', B.Holds exo endo u w)) :
    B.cfProb exo endo ws = B.cfProb exo endo ws' := by
  rw [cfProb, cfProb]
  refine sumOver_congr hx fun u _ hu => ?_
  by_cases hc : ∀ w ∈ ws, B.Holds exo endo u w
  · rw [if_pos hc, if_pos ((h u hu).1 hc)]
  · rw [if_neg hc, if_neg fun h' => hc ((h u hu).2 h')]

end BN
end Verif
