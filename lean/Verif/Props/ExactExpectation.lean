import Verif.Props.LearningEx
import Verif.Props.GdccMulti
import Verif.Props.ExactPairing

/-!
# Exactly when records contribute to their own configuration only (C59)
-/

set_option linter.unusedSectionVars false
set_option linter.unusedSimpArgs false

namespace Verif.Props
open Verif

variable {V S K : Type} [DecidableEq V] [DecidableEq S] [Nonempty S] [Field K] [LinearOrder K] [IsStrictOrderedRing K] {vt : VType}

local notation "II" => (storeOf vt : StoreImpl V S (Fl K))

/-- What is observed of the variable and its parents could not have been anything else. -/
def NoChoice (B : BN V S K) (v : V) (oc : List (Obs V S × ℕ)) : Prop :=
  ∀ p ∈ oc, 0 < p.2 → ∀ w ∈ v :: B.parents v, ∀ s, Dict.get? p.1 w = some s → ∀ t ∈ B.states w, t = s

/-- The counts are those of the own configurations exactly if there is no choice. -/
theorem own_iff {B : BN V S K} (hB : B.Valid) (hnn : B.NonNeg) {v : V} (hv : v ∈ B.nodes) {oc : List (Obs V S × ℕ)}
    (ho : ∀ p ∈ oc, EM.ObsOk B v p.1) :
    (∀ a, (∀ w ∈ v :: B.parents v, a w ∈ B.states w) → B.expCount v oc a = ownCount B v oc a) ↔ NoChoice B v oc := by
  have hpn : ∀ w ∈ v :: B.parents v, w ∈ B.nodes := fun w hw =>
    (List.mem_cons.1 hw).elim (fun e => e ▸ hv) fun h => hB.parents v hv w h
  constructor
  · intro h p hp hc w hw s hs t ht
    by_contra hne
    haveI : Inhabited S := ⟨t⟩
    obtain ⟨b, b1, b2, b3⟩ := sumOver_pos_exists (hB.nodes.filter _) (ho p hp).possible
    have hobs : ∀ u s, Dict.get? p.1 u = some s → b u = s := by
      intro u s hu
      rw [b1 u fun hc => (by simpa using (List.mem_filter.1 hc).2 : u ∉ Dict.keys p.1) (Dict.get?_isSome.1 (by rw [hu]; rfl)), asg, over_of_get? hu]
    have hb : B.InStates b := by
      intro u hu
      by_cases hk : u ∈ Dict.keys p.1
      · obtain ⟨s, hs⟩ := Option.isSome_iff_exists.1 (Dict.get?_isSome.2 hk)
        rw [hobs u s hs]
        exact (ho p hp).evidence.states u s hs
      · exact b2 u (List.mem_filter.2 ⟨hu, by simpa using hk⟩)
    have hpos := BN.post_pos hB hnn (B.hidden v p.1) hb (lt_of_le_of_ne (hnn.joint hb) (Ne.symm b3)) hobs
    let a := upd b w t
    have ha : ∀ u ∈ v :: B.parents v, a u ∈ B.states u := by
      intro u hu
      by_cases e : u = w
      · subst e; simpa [a, upd] using ht
      · simpa [a, upd, e] using hb u (hpn u hu)
    have hpost : B.post (B.hidden v p.1) p.1 a = B.post (B.hidden v p.1) p.1 b := by
      rw [BN.post, BN.post]
      have hag : ∀ u ∈ B.hidden v p.1 ++ Dict.keys p.1, over p.1 a u = over p.1 b u := over_agree fun u hu => by
        have : u ≠ w := fun e => (by simpa using (List.mem_filter.1 hu).2 : u ∉ Dict.keys p.1) (e ▸ Dict.get?_isSome.1 (by rw [hs]; rfl))
        simp [a, upd, this]
      rw [hB.marg_dep _ _ _ hag, hB.marg_dep _ _ _ fun u hu => hag u (List.mem_append_right _ hu)]
    have hlt : ownCount B v oc a < B.expCount v oc a := by
      rw [BN.expCount, ownCount]
      have h0 : ∀ q ∈ oc, 0 ≤ B.post (B.hidden v q.1) q.1 a * (q.2 : K) := fun q hq =>
        mul_nonneg (BN.post_nonneg hB hnn (ho q hq).evidence.states fun w hw => ha w (List.mem_filter.1 hw).1) (Nat.cast_nonneg _)
      refine List.sum_lt_sum _ _ (fun q hq => ?_) ⟨p, hp, ?_⟩
      · split
        · exact le_refl _
        · exact h0 q hq
      · rw [if_neg fun h => hne (by
          have := h w hw
          rw [over_of_get? hs] at this
          simpa [a, upd] using this.symm)]
        exact mul_pos (by rw [hpost]; exact hpos) (Nat.cast_pos.2 hc)
    exact absurd (h a ha) hlt.ne'
  · intro h a ha
    rw [BN.expCount, ownCount]
    congr 1
    refine List.map_congr_left fun p hp => ?_
    by_cases hc : 0 < p.2
    · refine (if_pos fun w hw => ?_).symm
      by_cases hk : w ∈ Dict.keys p.1
      · obtain ⟨s, hs⟩ := Option.isSome_iff_exists.1 (Dict.get?_isSome.2 hk)
        rw [over_of_get? hs]
        exact (h p hp hc w hw s hs (a w) (ha w hw)).symm
      · exact over_of_not_mem hk
    · rw [show p.2 = 0 by omega]
      simp

/-- **C59**, exactly: the counts that are computed for a variable are those of the own configurations of the records if and only if
whatever a record has of the variable and its parents could not have been anything else. So one observed parent with two states is
enough to make them wrong. -/
theorem C59_exact {ch : Choices V} (hch : ch.Ok) {s : EM II} {B : BN V S K} (hr : Represents s.model B)
    (hB : B.Valid) (hn : B.Normalised) (hnn : B.NonNeg) (hp : EM.PriorOk s.prior B) (ht : ∀ v ∈ s.trainable, v ∈ B.nodes)
    (oc : V → List (Obs V S × ℕ)) (hoc : ∀ v ∈ s.trainable, obsCounts s.model.graph s.data v = .ok (oc v))
    (ho : ∀ v ∈ s.trainable, ∀ p ∈ oc v, EM.ObsOk B v p.1) :
    ∃ l, EM.expectation ch s = .ok l ∧ (∀ v, v ∈ Dict.keys l ↔ v ∈ s.trainable ∧ v ∉ s.converged) ∧
      ∀ v f, Dict.get? l v = some f →
        ((∀ obs, FullObs f.dom obs → f.getValue obs = .ok (.fin (ownCount B v (oc v) (asg obs)))) ↔ NoChoice B v (oc v)) := by
  have hsub := EM.todo_sub hch s
  obtain ⟨l, l1, l2, l3⟩ := EM.expectation_ok hch hr hB hn hp ht oc (fun v hv => hoc v (hsub v hv)) fun v hv => ho v (hsub v hv)
  have hI := storeOf_lawful (V := V) (S := S) (α := Fl K) vt
  refine ⟨l, l1, fun v => ?_, fun v f hf => ?_⟩
  · rw [l2, EM.todo, (hch.setOrd _).2]
    simp
  · have hm := Dict.mem_of_get? hf
    have hv : v ∈ s.trainable := hsub v (by rw [← l2]; exact Dict.mem_keys_of_mem hm)
    obtain ⟨k1, k2, _⟩ := l3 _ hm
    rw [← own_iff hB hnn (ht v hv) (ho v hv)]
    constructor
    · intro h a ha
      let obs := obsOn f.vars a
      have hg : ∀ w ∈ v :: B.parents v, Dict.get? obs w = some (a w) := fun w hw => get?_obsOn ((k2 w).2 hw)
      have hfull : FullObs f.dom obs := fun p hpd => by
        have hk : p.1 ∈ v :: B.parents v := (k2 p.1).1 (Dict.mem_keys_of_mem hpd)
        exact ⟨a p.1, by rw [k1.dom p hpd]; exact ha _ hk, hg _ hk⟩
      have e := (h obs hfull).symm.trans (k1.getValue hI hfull)
      have e : ownCount B v (oc v) (asg obs) = B.expCount v (oc v) (asg obs) := by simpa using e
      have hag : ∀ w ∈ v :: B.parents v, asg obs w = a w := fun w hw => by rw [asg, over_of_get? (hg w hw)]
      rw [C59_broadcast hB v (oc v) fun p _ w hw => (hag w (List.mem_filter.1 hw).1).symm, ← e]
      rw [ownCount, ownCount]
      congr 1
      refine List.map_congr_left fun p hpm => ?_
      have hov : ∀ w ∈ v :: B.parents v, over p.1 (asg obs) w = over p.1 a w := fun w hw => by
        by_cases hk : w ∈ Dict.keys p.1
        · obtain ⟨s, hs⟩ := Option.isSome_iff_exists.1 (Dict.get?_isSome.2 hk)
          rw [over_of_get? hs, over_of_get? hs]
        · rw [over_of_not_mem hk, over_of_not_mem hk, hag w hw]
      have hpost : B.post (B.hidden v p.1) p.1 (asg obs) = B.post (B.hidden v p.1) p.1 a := by
        have := C59_broadcast hB v [(p.1, 1)] (a := asg obs) (b := a) fun q hq w hw => by
          rw [List.mem_singleton.1 hq] at hw
          exact hag w (List.mem_filter.1 hw).1
        simpa [BN.expCount] using this
      rw [hpost]
      congr 1
      refine propext ⟨fun h w hw => ?_, fun h w hw => ?_⟩
      · rw [← hov w hw, h w hw, hag w hw]
      · rw [hov w hw, h w hw, hag w hw]
    · intro h obs hobs
      rw [k1.getValue hI hobs, ← h (asg obs) fun w hw => ?_]
      obtain ⟨q, hq, e⟩ := List.mem_map.1 ((k2 w).2 hw)
      obtain ⟨t, t1, t2⟩ := hobs q hq
      rw [← e, asg, over_of_get? t2, ← k1.dom q hq]
      exact t1

/-- The counts of `Y` on records of a parent `X` that has one state only -/
def countsOne (vt : VType) (xs : List Char) : Py (List (Fl ℚ)) := do
  let m ← netOf vt ⟨['X', 'Y'], [('X', 'Y')]⟩
    [([('X', ['a'])], [q 1], 'X'), ([('X', ['a']), ('Y', ['a', 'b'])], [q (3/4), q (1/4)], 'Y')]
  let c ← (EM.learner (I := IQ vt) chEx klEq).init (EM.new m (some ['Y'])) (frOf xs)
  let l ← EM.expectation chEx c
  match Dict.get? l 'Y' with
  | some f => ['a', 'b'].mapM fun y => f.getValue [('X', 'a'), ('Y', y)]
  | none => .error .keyError

/-- Both cases: three records of a parent with one state are counted where they belong, three records of a parent with two states are
counted twice. -/
theorem C59_exact_example (vt : VType) : countsOne vt ['a', 'a', 'a'] = .ok [q (9/4), q (3/4)] ∧
    countsY vt ['a', 'a', 'a'] = .ok [q (9/4), q (3/4), q (9/4), q (3/4)] := by
  constructor
  · cases vt <;> decide +kernel
  · exact C59_observed_parent vt

end Verif.Props
